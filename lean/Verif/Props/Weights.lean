import Verif.Lemmas.Prios

/-!
# Selection probabilities: C17, C18

`Tracked s l` (`Verif/Model/Tracked.lean`): `s` is any strategy object after any history of calls that
leaves the sequences `l` tracked. `refresh` is what every draw does first.
-/

namespace Verif.Props

open Verif Spec

/-! ## C17 -/

/-- C17: the weights of a uniform draw are non-negative, sum to one and are length/total. -/
theorem C17_weights {s s' : Uniform} {l : Dict Int Nat} (h : Tracked (.uniform s) l)
    (hr : s.refresh = (s', .ok ())) (hpos : 0 < trackedTotal l) :
    s'.weights.length = s'.ids.length ∧ (∀ w ∈ s'.weights, 0 ≤ w) ∧ s'.weights.sum = 1 ∧
    (∀ (id : Int) (len : Nat), l.get? id = some len →
      choiceProb s'.ids s'.weights id = (len : ℝ) / (trackedTotal l : ℝ)) ∧
    (∀ id, l.get? id = none → choiceProb s'.ids s'.weights id = 0) := by
  obtain ⟨_, h1, h2, h3⟩ := Strategy.refresh_uniform h.tracks.1 hr
  have htot : s'.prios.sum = trackedTotal l := by rw [h2]; rfl
  refine ⟨by simp [Uniform.weights, h1, h2, Dict.keys, Dict.values], ?_,
    Uniform.weights_sum (by rw [htot]; exact hpos), ?_, ?_⟩
  · intro w hw
    simp only [Uniform.weights, List.mem_map] at hw
    obtain ⟨n, _, rfl⟩ := hw
    positivity
  · intro id len hl
    have := choiceProb_eq h.tracks.2 (fun (n : Nat) => (n : ℝ) / (trackedTotal l : ℝ)) hl
    rw [h1, Uniform.weights, htot, h2]; exact this
  · intro id hl
    have : (s'.ids.zip s'.weights).filter (fun p => p.1 = id) = [] := by
      rw [List.filter_eq_nil_iff]
      rintro ⟨a, b⟩ hab
      have := (List.of_mem_zip hab).1
      simp only [decide_eq_true_eq]
      rintro rfl
      rw [h1] at this
      obtain ⟨n, hn⟩ := Dict.get?_isSome_of_mem this
      rw [hl] at hn; simp at hn
    rw [choiceProb, this]; rfl

/-- C17: with windows of one transition every stored transition is equally likely; nothing else is drawn. -/
theorem C17_transitions_equally_likely {s s' : Uniform} {l : Dict Int Nat} (h : Tracked (.uniform s) l)
    (hr : s.refresh = (s', .ok ())) (hpos : 0 < trackedTotal l) {id : Int} {len : Nat}
    (hl : l.get? id = some len) (hlen : 0 < len) (k : Int) :
    s'.windowProb 1 id k = if 0 ≤ k ∧ k < len then 1 / (trackedTotal l : ℝ) else 0 := by
  obtain ⟨_, h1, h2, h3⟩ := Strategy.refresh_uniform h.tracks.1 hr
  obtain ⟨_, _, _, h4, _⟩ := C17_weights h hr hpos
  rw [Uniform.windowProb, h3, hl, h4 id len hl]
  simp only [sub_self, sub_zero]
  have hlen' : (0 : ℝ) < len := by exact_mod_cast hlen
  have htot : (0 : ℝ) < (trackedTotal l : ℝ) := by exact_mod_cast hpos
  split
  · rename_i hk
    rw [offsetProb_in (by omega) hk.1 hk.2]
    push_cast
    field_simp
  · rename_i hk
    rw [offsetProb_out (by omega) (by omega), mul_zero]

/-- C17 for longer windows: the sequence first, then one of its full windows, all equally likely. -/
theorem C17_windows {s s' : Uniform} {l : Dict Int Nat} (h : Tracked (.uniform s) l)
    (hr : s.refresh = (s', .ok ())) (hpos : 0 < trackedTotal l) {id : Int} {len : Nat}
    (hl : l.get? id = some len) {tc : Nat} (h2 : tc ≤ len) (k : Int) :
    s'.windowProb tc id k = if 0 ≤ k ∧ k + tc ≤ len
      then (len : ℝ) / (trackedTotal l : ℝ) * (1 / ((len - tc + 1 : ℕ) : ℝ)) else 0 := by
  obtain ⟨_, _, _, h3⟩ := Strategy.refresh_uniform h.tracks.1 hr
  obtain ⟨_, _, _, h4, _⟩ := C17_weights h hr hpos
  rw [Uniform.windowProb, h3, hl, h4 id len hl]
  simp only
  have he : (len : Int) - ((tc : Int) - 1) = ((len - tc + 1 : ℕ) : Int) := by omega
  rw [he]
  split
  · rw [offsetProb_in (by omega) (by omega) (by omega)]
    push_cast; rfl
  · rw [offsetProb_out (by omega) (by omega), mul_zero]

/-- C17 for windows that are longer than the sequence: the window begins before the sequence does, or with it; each of the
possible beginnings is equally likely. -/
theorem C17_short {s s' : Uniform} {l : Dict Int Nat} (h : Tracked (.uniform s) l)
    (hr : s.refresh = (s', .ok ())) (hpos : 0 < trackedTotal l) {id : Int} {len : Nat}
    (hl : l.get? id = some len) {tc : Nat} (h2 : len + 1 < tc) (k : Int) :
    s'.windowProb tc id k = if k ≤ 0 ∧ (len : Int) + 1 < k + tc
      then (len : ℝ) / (trackedTotal l : ℝ) * (1 / ((tc - 1 - len : ℕ) : ℝ)) else 0 := by
  obtain ⟨_, _, _, h3⟩ := Strategy.refresh_uniform h.tracks.1 hr
  obtain ⟨_, _, _, h4, _⟩ := C17_weights h hr hpos
  rw [Uniform.windowProb, h3, hl, h4 id len hl]
  simp only
  have he : (len : Int) - ((tc : Int) - 1) = -((tc - 1 - len : ℕ) : Int) := by omega
  have hk : k = -(-k) := by omega
  rw [he, hk, offsetProb_neg]
  split
  · rw [offsetProb_in (by omega) (by omega) (by omega)]
    push_cast; ring
  · rw [offsetProb_out (by omega) (by omega), mul_zero]

/-- … and one longer than the sequence it begins with it. -/
theorem C17_short_by_one {s s' : Uniform} {l : Dict Int Nat} (h : Tracked (.uniform s) l)
    (hr : s.refresh = (s', .ok ())) (hpos : 0 < trackedTotal l) {id : Int} {len : Nat}
    (hl : l.get? id = some len) (k : Int) :
    s'.windowProb ((len : Int) + 1) id k = if k = 0 then (len : ℝ) / (trackedTotal l : ℝ) else 0 := by
  obtain ⟨_, _, _, h3⟩ := Strategy.refresh_uniform h.tracks.1 hr
  obtain ⟨_, _, _, h4, _⟩ := C17_weights h hr hpos
  rw [Uniform.windowProb, h3, hl, h4 id len hl]
  simp only
  rw [show (len : Int) - ((len : Int) + 1 - 1) = 0 by omega, offsetProb_zero]
  split <;> simp

/-- The outcomes which the model of `sample` allows are those of positive probability. -/
theorem C17_support {s s' : Uniform} {l : Dict Int Nat} (h : Tracked (.uniform s) l)
    (hr : s.refresh = (s', .ok ())) (hpos : 0 < trackedTotal l) (id : Int) :
    (∃ d, choice s'.ids s'.prios d = .ok id) ↔ 0 < choiceProb s'.ids s'.weights id := by
  obtain ⟨_, h1, h2, h3⟩ := Strategy.refresh_uniform h.tracks.1 hr
  obtain ⟨_, _, _, h4, h5⟩ := C17_weights h hr hpos
  have hnd := h.tracks.2
  have hT : (0 : ℝ) < (trackedTotal l : ℝ) := by exact_mod_cast hpos
  have hzip : s'.ids.zip s'.prios = l := by
    rw [h1, h2, Dict.keys, Dict.values]
    induction l with
    | nil => rfl
    | cons p l ih => simp [List.zip_map']
  have hlen : s'.ids.length = s'.prios.length := by rw [h1, h2]; simp [Dict.keys, Dict.values]
  have key : (∃ d, choice s'.ids s'.prios d = .ok id) ↔ ∃ len, (id, len) ∈ l ∧ 0 < len := by
    unfold choice
    simp only [hzip, hlen, ne_eq, not_true_eq_false, if_false]
    constructor
    · rintro ⟨d, hd⟩
      split at hd
      · simp at hd
      · rename_i x hx
        injection hd with hd; subst hd
        have := List.mem_of_getElem? hx
        simp only [List.mem_map, List.mem_filter, decide_eq_true_eq] at this
        obtain ⟨⟨a, b⟩, ⟨h6, h7⟩, rfl⟩ := this
        exact ⟨b, h6, h7⟩
    · rintro ⟨len, h6, h7⟩
      have hm : id ∈ (l.filter (fun p => 0 < p.2)).map Prod.fst :=
        List.mem_map.2 ⟨(id, len), List.mem_filter.2 ⟨h6, by simpa using h7⟩, rfl⟩
      obtain ⟨i, hi, hi'⟩ := List.mem_iff_getElem.1 hm
      refine ⟨i, ?_⟩
      rw [Nat.mod_eq_of_lt hi, List.getElem?_eq_getElem hi, hi']
  rw [key]
  cases hl : l.get? id with
  | none =>
    rw [h5 id hl]
    simp only [lt_irrefl, iff_false]
    rintro ⟨len, h6, _⟩
    rw [Dict.get?_of_mem hnd h6] at hl; simp at hl
  | some len =>
    rw [h4 id len hl]
    constructor
    · rintro ⟨len', h6, h7⟩
      rw [Dict.get?_of_mem hnd h6] at hl
      injection hl with hl; subst hl
      have : (0 : ℝ) < len' := by exact_mod_cast h7
      positivity
    · intro h6
      refine ⟨len, Dict.mem_of_get? hl, ?_⟩
      rcases Nat.eq_zero_or_pos len with h7 | h7
      · rw [h7] at h6; simp at h6
      · exact h7

/-- … and so are the windows: `sample` can return a window, of whatever length, exactly if its probability is positive. -/
theorem C17_outcomes {s s' : Uniform} {l : Dict Int Nat} (h : Tracked (.uniform s) l)
    (hr : s.refresh = (s', .ok ())) (hpos : 0 < trackedTotal l) (tc id k : Int) :
    (∃ c r, s.sample 1 tc c r = (s', .ok [(id, k, k + tc)])) ↔ 0 < s'.windowProb tc id k := by
  obtain ⟨_, h1, h2, h3⟩ := Strategy.refresh_uniform h.tracks.1 hr
  have hs := C17_support h hr hpos id
  have hnn : 0 ≤ choiceProb s'.ids s'.weights id := by
    obtain ⟨_, _, _, h4, h5⟩ := C17_weights h hr hpos
    cases hl : l.get? id with
    | none => exact (h5 id hl).ge
    | some len => rw [h4 id len hl]; positivity
  have key : (∃ c r, s.sample 1 tc c r = (s', .ok [(id, k, k + tc)])) ↔
      (∃ d, choice s'.ids s'.prios d = .ok id) ∧ ∃ len, s'.idents.get? id = some len ∧
        ∃ d, truncDraw d ((len : Int) - (tc - 1)) = k := by
    have hred : ∀ c r, s.sample 1 tc c r = (s', (choice s'.ids s'.prios (c 0)).bind fun x =>
        Uniform.points s'.idents tc r [x] 0) := fun c r => by
      rw [Uniform.sample, hr]
      simp only [Res.andThen, Uniform.choices]
      cases choice s'.ids s'.prios (c 0) <;> rfl
    constructor
    · rintro ⟨c, r, hcr⟩
      rw [hred] at hcr
      have hcr := (Prod.mk.inj hcr).2
      cases hc : choice s'.ids s'.prios (c 0) with
      | error e => rw [hc] at hcr; cases hcr
      | ok x =>
        rw [hc] at hcr
        simp only [Except.bind, Uniform.points] at hcr
        cases hi : s'.idents.get? x with
        | none => rw [hi] at hcr; cases hcr
        | some len =>
          rw [hi] at hcr
          have hcr := List.cons.inj (Except.ok.inj hcr)
          obtain ⟨h7, h8⟩ := Prod.mk.inj hcr.1
          subst h7
          exact ⟨⟨_, hc⟩, len, hi, r 0, (Prod.mk.inj h8).1⟩
    · rintro ⟨⟨d, hd⟩, len, hi, d', hd'⟩
      refine ⟨fun _ => d, fun _ => d', ?_⟩
      rw [hred, hd]
      simp only [Except.bind, Uniform.points, hi, hd']
      rfl
  rw [key, hs, Uniform.windowProb]
  cases hl : s'.idents.get? id with
  | none => simp
  | some len =>
    simp only [Option.some.injEq, exists_eq_left']
    rw [truncDraw_support_all]
    constructor
    · rintro ⟨a, b⟩; exact mul_pos a b
    · intro hp
      rcases hnn.lt_or_eq with a | a
      · exact ⟨a, (mul_pos_iff_of_pos_left a).1 hp⟩
      · rw [← a, zero_mul] at hp; exact absurd hp (lt_irrefl _)

/-! ## C18 -/

/-- C18: the weights of a coverage draw are non-negative and sum to one, for any `alpha`. -/
theorem C18_weights {s s' : Coverage} {l : Dict Int Nat} (h : Tracked (.coverage s) l)
    (hr : s.refresh = (s', .ok ())) (hpos : 0 < trackedTotal l) (alpha : ℝ) :
    (s'.weights alpha).length = s'.ids.length ∧ s'.ids.length = l.length ∧
    (∀ w ∈ s'.weights alpha, 0 ≤ w) ∧ (s'.weights alpha).sum = 1 := by
  obtain ⟨_, h1, h2, h3, h4⟩ := Strategy.refresh_coverage h.tracks.1 hr
  obtain ⟨h5, _⟩ := Coverage.snap_refresh h.snap hr (Coverage.refresh_visits hr).1
  have hlen : s'.prios.length = s'.visits.length := by rw [h5, h1, h2]; simp [Dict.keys, Dict.values]
  have hsum : 0 < s'.prios.sum := by rw [h2]; exact hpos
  have hc := Coverage.combined_sum_pos (alpha := alpha) hlen hsum
  refine ⟨?_, by rw [h1]; simp [Dict.keys], ?_, ?_⟩
  · simp only [Coverage.weights, Coverage.combined, List.length_map, List.length_zipWith]; omega
  · intro w hw
    simp only [Coverage.weights, List.mem_map] at hw
    obtain ⟨x, hx, rfl⟩ := hw
    rw [Coverage.combined, List.mem_iff_getElem] at hx
    obtain ⟨i, hi, rfl⟩ := hx
    rw [List.getElem_zipWith]
    positivity
  · rw [Coverage.weights]
    have := sum_map_div (s'.combined alpha) (s'.combined alpha).sum
    rw [this, div_self hc.ne']

/-- C18 (partial): the weights are averse to the visit counts *as they were at the last rebalance* (the last
time a sequence was added or removed), which are never above the current counters and are the current ones
if a sequence was added or removed since the last draw. Missing: aversion to the current counters, which
the code does not have (`C18_false`). -/
theorem C18_visit_averse_partial {s s' : Coverage} {l : Dict Int Nat} (h : Tracked (.coverage s) l)
    (hr : s.refresh = (s', .ok ())) (hpos : 0 < trackedTotal l) {alpha : ℝ} (ha : 0 ≤ alpha) :
    ∃ seen : Int → Nat,
      (∀ id c, id ∈ l.keys → s.counts.get? id = some c →
        seen id ≤ c ∧ (s.dirty = true → seen id = c)) ∧
      (∀ a b n, l.get? a = some n → l.get? b = some n → seen a ≤ seen b →
        choiceProb s'.ids (s'.weights alpha) b ≤ choiceProb s'.ids (s'.weights alpha) a) ∧
      (∀ a b n, l.get? a = some n → l.get? b = some n → seen a < seen b → 0 < n → 0 < alpha →
        choiceProb s'.ids (s'.weights alpha) b < choiceProb s'.ids (s'.weights alpha) a) := by
  obtain ⟨_, h1, h2, h3, h4⟩ := Strategy.refresh_coverage h.tracks.1 hr
  obtain ⟨g1, g2, g3, g4⟩ := Coverage.refresh_visits hr
  obtain ⟨h5, h6⟩ := Coverage.snap_refresh h.snap hr g1
  have hlen : s'.prios.length = s'.visits.length := by rw [h5, h1, h2]; simp [Dict.keys, Dict.values]
  have hsum : 0 < s'.prios.sum := by rw [h2]; exact hpos
  have hsum' : (0 : ℝ) < ((s'.prios.sum : ℕ) : ℝ) := by exact_mod_cast hsum
  have hc := Coverage.combined_sum_pos (alpha := alpha) hlen hsum
  have hnd : s'.ids.Nodup := by rw [h1]; exact h.tracks.2
  have hseen : ∀ (i : Nat) (id : Int), s'.ids[i]? = some id →
      s'.visits[i]? = (s'.visits[s'.ids.idxOf id]?) ∧ ∃ v, s'.visits[i]? = some v := by
    intro i id hi
    have hlt : i < s'.ids.length := by
      by_contra hh; rw [List.getElem?_eq_none (by omega)] at hi; simp at hi
    have he : s'.ids[i] = id := by rw [List.getElem?_eq_getElem hlt] at hi; exact Option.some.inj hi
    refine ⟨by rw [← he, hnd.idxOf_getElem], ?_⟩
    rw [← h5] at hlt
    exact ⟨_, List.getElem?_eq_getElem hlt⟩
  refine ⟨fun id => (s'.visits[s'.ids.idxOf id]?).getD 0, ?_, ?_, ?_⟩
  · intro id c hid hcnt
    obtain ⟨i, hi⟩ := List.mem_iff_getElem?.1 (h1 ▸ hid : id ∈ s'.ids)
    obtain ⟨e1, v, e2⟩ := hseen i id hi
    obtain ⟨c', e3, e4⟩ := h6 i id v hi e2
    rw [h4, hcnt] at e3
    injection e3 with e3; subst e3
    simp only [← e1, e2, Option.getD_some]
    refine ⟨e4, fun hd => ?_⟩
    have := (g4 hd).2 i id hi
    rw [e2, hcnt] at this
    exact Option.some.inj this
  all_goals
    intro a b n hla hlb hle
    obtain ⟨i, hi1, hi2⟩ := index_of_get? hla
    obtain ⟨j, hj1, hj2⟩ := index_of_get? hlb
    rw [← h1] at hi1 hj1
    rw [← h2] at hi2 hj2
    obtain ⟨e1, v, e2⟩ := hseen i a hi1
    obtain ⟨f1, w, f2⟩ := hseen j b hj1
    simp only [← e1, ← f1, e2, f2, Option.getD_some] at hle
  · rw [choiceProb_get hnd hi1 (Coverage.weights_get hi2 e2), choiceProb_get hnd hj1 (Coverage.weights_get hj2 f2)]
    gcongr
  · intro hn hα
    rw [choiceProb_get hnd hi1 (Coverage.weights_get hi2 e2), choiceProb_get hnd hj1 (Coverage.weights_get hj2 f2)]
    have hn' : (0 : ℝ) < n := by exact_mod_cast hn
    gcongr

/-- C18: a successful draw counts exactly the windows it returns. -/
theorem C18_counters {s s' : Coverage} {l : Dict Int Nat} (h : Tracked (.coverage s) l)
    {count : Nat} {tc : Int} {c r : Nat → Nat} {pts : List SamplePoint}
    (hs : s.sample count tc c r = (s', .ok pts)) :
    s'.counts.keys = l.keys ∧ pts.length = count ∧
    ∀ id n, s.counts.get? id = some n →
      s'.counts.get? id = some (n + (pts.filter fun p => p.1 = id).length) := by
  have ht := Strategy.tracks_sample (s := .coverage s) (s' := .coverage s') h.tracks.1
    (count := count) (tc := tc) (c := c) (r := r) (x := .ok pts)
    (by simp [Strategy.sample, hs, Res.lift]) (by simp)
  refine ⟨ht.2.1, ?_⟩
  unfold Coverage.sample at hs
  cases hr : s.refresh with
  | mk s1 y =>
    rw [hr] at hs
    cases y with
    | error e => simp at hs
    | ok u =>
      simp only [Res.andThen_ok] at hs
      split at hs
      · simp at hs
      · rename_i chosen hch
        simp only [Res.lift, Prod.mk.injEq] at hs
        rw [← hs.1]
        refine ⟨by rw [Coverage.points_length (Prod.ext rfl hs.2), choices_length hch], ?_⟩
        intro id n hn
        refine Coverage.points_counts (Prod.ext rfl hs.2) ?_
        rw [(Coverage.refresh_visits hr).2.1]; exact hn

namespace ExC

def c0 : Coverage := ((({} : Coverage).track 1 1).1.track 2 1).1
/-- Sequence 1 is drawn once. -/
def c1 : Coverage := (c0.sample 1 1 (fun _ => 0) id).1
/-- A third sequence arrives, and sequence 2 is drawn three times. -/
def c2 : Coverage := ((c1.track 3 1).1.sample 3 1 (fun _ => 1) id).1

theorem tracked0 : Tracked (.coverage c0) [(1, 1), (2, 1)] :=
  (Tracked.track (Tracked.track (Tracked.fresh .coverage) (id := 1) (len := 1) (by decide) rfl)
    (id := 2) (len := 1) (by decide) rfl)

theorem tracked1 : Tracked (.coverage c1) [(1, 1), (2, 1)] :=
  Tracked.sample (count := 1) (tc := 1) (c := fun _ => 0) (r := id) tracked0
    (x := .ok [(1, 0, 1)]) (by decide +kernel) (by simp)

theorem tracked2 : Tracked (.coverage c2) [(1, 1), (2, 1), (3, 1)] :=
  Tracked.sample (count := 3) (tc := 1) (c := fun _ => 1) (r := id)
    (Tracked.track (id := 3) (len := 1) tracked1 (by decide) rfl)
    (x := .ok [(2, 0, 1), (2, 0, 1), (2, 0, 1)]) (by decide +kernel) (by simp)

end ExC

/-- C18 is false: two sequences of equal length where the less visited one has the lower weight, because
drawing does not trigger a rebalance. For every positive `alpha`. -/
theorem C18_false {alpha : ℝ} (ha : 0 < alpha) :
    ∃ (s s' : Coverage) (l : Dict Int Nat), Tracked (.coverage s) l ∧ s.refresh = (s', .ok ()) ∧
      l.get? 1 = some 1 ∧ l.get? 2 = some 1 ∧ s.counts.get? 1 = some 1 ∧ s.counts.get? 2 = some 3 ∧
      choiceProb s'.ids (s'.weights alpha) 1 < choiceProb s'.ids (s'.weights alpha) 2 := by
  refine ⟨ExC.c2, ExC.c2, _, ExC.tracked2, by decide +kernel, rfl, rfl, by decide +kernel, by decide +kernel, ?_⟩
  have hp : ExC.c2.prios = [1, 1, 1] := by decide +kernel
  have hv : ExC.c2.visits = [1, 0, 0] := by decide +kernel
  have hi : ExC.c2.ids = [1, 2, 3] := by decide +kernel
  have hc := Coverage.combined_sum_pos (alpha := alpha) (s := ExC.c2) (by rw [hp, hv]; rfl) (by rw [hp]; decide)
  rw [choiceProb_get (i := 0) (by rw [hi]; decide) (by rw [hi]; rfl)
      (Coverage.weights_get (n := 1) (v := 1) (by rw [hp]; rfl) (by rw [hv]; rfl)),
    choiceProb_get (i := 1) (by rw [hi]; decide) (by rw [hi]; rfl)
      (Coverage.weights_get (n := 1) (v := 0) (by rw [hp]; rfl) (by rw [hv]; rfl))]
  have hs : (0 : ℝ) < ((ExC.c2.prios.sum : ℕ) : ℝ) := by rw [hp]; norm_num
  gcongr
  norm_num

/-! ## Concrete cases -/

namespace ExU
def u : Uniform := ((({} : Uniform).track 1 1).1.track 2 3).1
theorem tracked : Tracked (.uniform u) [(1, 1), (2, 3)] :=
  (Tracked.track (Tracked.track (Tracked.fresh .uniform) (id := 1) (len := 1) (by decide) rfl)
    (id := 2) (len := 3) (by decide) rfl)
end ExU

example := C17_weights ExU.tracked (s' := ExU.u.refresh.1) (by decide +kernel) (by decide)
example : ExU.u.refresh.1.windowProb 1 2 2 = 1 / 4 := by
  rw [C17_transitions_equally_likely ExU.tracked (by decide +kernel) (by decide) (len := 3) rfl (by decide)]
  norm_num [trackedTotal]
example : ExU.u.refresh.1.windowProb 2 2 1 = 3 / 8 := by
  have := C17_windows ExU.tracked (s' := ExU.u.refresh.1) (by decide +kernel) (by decide) (id := 2) (len := 3)
    rfl (tc := 2) (by decide) 1
  rw [show ((2 : ℕ) : ℤ) = 2 from rfl] at this
  rw [this]; norm_num [trackedTotal]
example : ExU.u.refresh.1.windowProb 6 2 (-1) = 3 / 8 := by
  have := C17_short ExU.tracked (s' := ExU.u.refresh.1) (by decide +kernel) (by decide) (id := 2) (len := 3)
    rfl (tc := 6) (by decide) (-1)
  rw [show ((6 : ℕ) : ℤ) = 6 from rfl] at this
  rw [this]; norm_num [trackedTotal]
example := C17_short_by_one ExU.tracked (s' := ExU.u.refresh.1) (by decide +kernel) (by decide) (id := 2) (len := 3) rfl 0
example := C17_support ExU.tracked (s' := ExU.u.refresh.1) (by decide +kernel) (by decide) 2
example := C17_outcomes ExU.tracked (s' := ExU.u.refresh.1) (by decide +kernel) (by decide) 6 2 (-1)
example := C18_weights ExC.tracked2 (s' := ExC.c2) (by decide +kernel) (by decide) (1 / 2)
example := C18_visit_averse_partial ExC.tracked1 (s' := ExC.c1) (by decide +kernel) (by decide)
  (alpha := 1 / 2) (by norm_num)
example := C18_counters (s := (ExC.c1.track 3 1).1) (s' := ExC.c2) (count := 3) (tc := 1) (c := fun _ => 1) (r := id)
  (Tracked.track (id := 3) (len := 1) ExC.tracked1 (by decide) rfl)
  (pts := [(2, 0, 1), (2, 0, 1), (2, 0, 1)]) (by decide +kernel)
example : ExC.c2.counts = [(1, 1), (2, 3), (3, 0)] := by decide +kernel

end Verif.Props
