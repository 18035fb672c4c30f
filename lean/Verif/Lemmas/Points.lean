import Verif.Lemmas.Sample

set_option linter.unusedSimpArgs false

namespace Verif

open Dict

/-- A sample point that lies on a tracked sequence, and inside it if the window fits; if it does not, it may begin before the sequence and
ends behind it. -/
def PointOk (l : Dict Int Nat) (tc : Int) (p : SamplePoint) : Prop :=
  ∃ len, l.get? p.1 = some len ∧ p.2.2 = p.2.1 + tc ∧
    (tc ≤ len → 0 ≤ p.2.1 ∧ p.2.1 + tc ≤ len) ∧
    (len < tc → p.2.1 ≤ 0 ∧ len + 1 ≤ p.2.1 + tc)

theorem truncDraw_range {d : Nat} {n : Int} (h : 0 < n) : 0 ≤ truncDraw d n ∧ truncDraw d n < n := by
  unfold truncDraw
  rw [if_pos h]
  exact ⟨Int.emod_nonneg _ (by omega), Int.emod_lt_of_pos _ h⟩

theorem truncDraw_neg {d : Nat} {n : Int} (h : n ≤ 0) : truncDraw d n ≤ 0 ∧ n ≤ truncDraw d n := by
  unfold truncDraw
  rw [if_neg (by omega)]
  split
  · have h1 := Int.emod_nonneg (d : Int) (b := -n) (by omega)
    have h2 := Int.emod_lt_of_pos (d : Int) (b := -n) (by omega)
    omega
  · omega

theorem randint0_range {d : Nat} {b x : Int} (h : randint0 d b = .ok x) : 0 ≤ x ∧ x ≤ b := by
  unfold randint0 at h
  split at h
  · simp at h
  · injection h with h; subst h
    have : 0 < b + 1 := by omega
    exact ⟨Int.emod_nonneg _ (by omega), by have := Int.emod_lt_of_pos (d : Int) this; omega⟩

theorem randint0_err {d : Nat} {b : Int} {e : Err} (h : randint0 d b = .error e) :
    e = .valueError := by
  unfold randint0 at h
  split at h
  · injection h with h; exact h.symm
  · simp at h

namespace Uniform

theorem points_ok {l : Dict Int Nat} {tc : Int} {r : Nat → Nat} {ids : List Int} {k : Nat}
    {pts : List SamplePoint} (h : points l tc r ids k = .ok pts) :
    pts.map Prod.fst = ids ∧ ∀ p ∈ pts, PointOk l tc p := by
  induction ids generalizing k pts with
  | nil => simp only [points, Except.ok.injEq] at h; subst h; simp
  | cons id ids ih =>
    unfold points at h
    split at h
    · simp at h
    · rename_i len hlen
      cases hr : points l tc r ids (k + 1) with
      | error e => rw [hr] at h; simp [bind, Except.bind] at h
      | ok rest =>
        rw [hr] at h
        simp only [bind, Except.bind, Except.ok.injEq] at h
        subst h
        obtain ⟨h1, h2⟩ := ih hr
        refine ⟨by simp [h1], ?_⟩
        intro p hp
        rcases List.mem_cons.1 hp with rfl | hp
        · refine ⟨len, hlen, rfl, fun htc => ?_, fun htc => ?_⟩
          · have := truncDraw_range (d := r k) (n := (len : Int) - (tc - 1)) (by omega)
            simp only; omega
          · have := truncDraw_neg (d := r k) (n := (len : Int) - (tc - 1)) (by omega)
            simp only; omega
        · exact h2 p hp

theorem points_total {l : Dict Int Nat} {tc : Int} {r : Nat → Nat} {ids : List Int} {k : Nat}
    (h : ∀ id ∈ ids, ∃ w, l.get? id = some w) : ∃ pts, points l tc r ids k = .ok pts := by
  induction ids generalizing k with
  | nil => exact ⟨[], rfl⟩
  | cons id ids ih =>
    obtain ⟨w, hw⟩ := h id (by simp)
    obtain ⟨pts, hp⟩ := ih (k := k + 1) (fun j hj => h j (by simp [hj]))
    unfold points
    rw [hw]
    simp only [hp, bind, Except.bind]
    exact ⟨_, rfl⟩

theorem choice_err {ids : List Int} {prios : List Nat} {d : Nat} {e : Err}
    (h : choice ids prios d = .error e) : e = .valueError := by
  unfold choice at h
  simp only at h
  split at h
  · injection h with h; exact h.symm
  · split at h
    · injection h with h; exact h.symm
    · simp at h

theorem choices_ok {l : Dict Int Nat} {c : Nat → Nat} {left k : Nat} {ids : List Int}
    (hn : l.keys.Nodup) (h : choices l.keys l.values c left k = .ok ids) :
    ids.length = left ∧ ∀ id ∈ ids, ∃ w, l.get? id = some w ∧ 0 < w := by
  induction left generalizing k ids with
  | zero => simp only [choices, Except.ok.injEq] at h; subst h; simp
  | succ left ih =>
    unfold choices at h
    cases hc : choice l.keys l.values (c k) with
    | error e => rw [hc] at h; simp [bind, Except.bind] at h
    | ok id =>
      cases hr : choices l.keys l.values c left (k + 1) with
      | error e => rw [hc, hr] at h; simp [bind, Except.bind] at h
      | ok rest =>
        rw [hc, hr] at h
        simp only [bind, Except.bind, Except.ok.injEq] at h
        subst h
        obtain ⟨h1, h2⟩ := ih hr
        refine ⟨by simp [h1], ?_⟩
        intro j hj
        rcases List.mem_cons.1 hj with rfl | hj
        · exact choice_tracked hn hc
        · exact h2 j hj

theorem choices_err {ids : List Int} {prios : List Nat} {c : Nat → Nat} {left k : Nat} {e : Err}
    (h : choices ids prios c left k = .error e) : e = .valueError := by
  induction left generalizing k with
  | zero => simp [choices] at h
  | succ left ih =>
    unfold choices at h
    cases hc : choice ids prios (c k) with
    | error e' =>
      rw [hc] at h
      simp only [bind, Except.bind, Except.error.injEq] at h
      subst h; exact choice_err hc
    | ok id =>
      cases hr : choices ids prios c left (k + 1) with
      | error e' =>
        rw [hc, hr] at h
        simp only [bind, Except.bind, Except.error.injEq] at h
        subst h; exact ih hr
      | ok rest => rw [hc, hr] at h; simp [bind, Except.bind] at h

end Uniform

namespace Coverage

/-- The points are those of the uniform sampler. -/
theorem points_eq {l : Dict Int Nat} {tc : Int} {r : Nat → Nat} {ids : List Int} {k : Nat}
    {counts : Dict Int Nat} (h : ∀ id ∈ ids, id ∈ counts.keys) :
    (points l tc r ids k counts).2 = Uniform.points l tc r ids k := by
  induction ids generalizing k counts with
  | nil => rfl
  | cons id ids ih =>
    obtain ⟨n, hn⟩ := get?_isSome_of_mem (h id (by simp))
    unfold points Uniform.points
    simp only [hn]
    cases hl : l.get? id with
    | none => rfl
    | some len =>
      simp only
      have ih := ih (k := k + 1) (counts := counts.set id (n + 1)) (by
        intro j hj; rw [keys_set_of_mem (mem_keys_of_get? hn)]; exact h j (by simp [hj]))
      rw [← ih]
      cases points l tc r ids (k + 1) (counts.set id (n + 1)) with
      | mk c x => cases x <;> rfl

end Coverage

namespace Fifo

theorem episodeAt_ok {s : Fifo} {l : Dict Int Nat} {k : Nat} (h1 : s.ids = l.keys) (h2 : s.lens = l)
    (hk : l.keys ≠ []) : ∃ id len, s.episodeAt k = .ok (id, len) ∧ l.get? id = some len ∧
      l.keys[k % l.keys.length]? = some id := by
  have hpos : 0 < l.keys.length := List.length_pos_iff.2 hk
  have hlt : k % l.keys.length < l.keys.length := Nat.mod_lt _ hpos
  have hget : l.keys[k % l.keys.length]? = some (l.keys[k % l.keys.length]) :=
    List.getElem?_eq_getElem hlt
  obtain ⟨len, hlen⟩ := get?_isSome_of_mem (List.getElem_mem hlt)
  refine ⟨_, len, ?_, hlen, hget⟩
  unfold episodeAt
  rw [h1, h2, if_neg (by omega), hget]
  simp only [hlen]

theorem episodeAt_cases {s : Fifo} {l : Dict Int Nat} (k : Nat) (h1 : s.ids = l.keys)
    (h2 : s.lens = l) : s.episodeAt k = .error .zeroDivision ∨
    ∃ id len, s.episodeAt k = .ok (id, len) ∧ l.get? id = some len := by
  by_cases hk : l.keys = []
  · left; unfold episodeAt; rw [h1, hk]; rfl
  · obtain ⟨id, len, h3, h4, _⟩ := episodeAt_ok h1 h2 (k := k) hk
    exact Or.inr ⟨id, len, h3, h4⟩

theorem samplePerEpisode_ok {s : Fifo} {l : Dict Int Nat} {tc : Int} {r : Nat → Nat}
    (h1 : s.ids = l.keys) (h2 : s.lens = l) {left k : Nat} :
    (∃ e, samplePerEpisode s tc r left k = .error e ∧ (e = .zeroDivision ∨ e = .valueError)) ∨
    ∃ pts, samplePerEpisode s tc r left k = .ok pts ∧ pts.length = left ∧ ∀ p ∈ pts, PointOk l tc p := by
  induction left generalizing k with
  | zero => exact Or.inr ⟨[], rfl, rfl, by simp⟩
  | succ left ih =>
    unfold samplePerEpisode
    rcases episodeAt_cases k h1 h2 with he | ⟨id, len, he, hlen⟩
    · rw [he]; exact Or.inl ⟨_, rfl, Or.inl rfl⟩
    · rw [he]
      simp only [bind, Except.bind]
      cases ho : randint0 (r k) ((len : Int) - tc) with
      | error e => exact Or.inl ⟨_, rfl, Or.inr (randint0_err ho)⟩
      | ok off =>
        simp only
        rcases ih (k := k + 1) with ⟨e, hr, hee⟩ | ⟨pts, hr, hlen', hp⟩
        · rw [hr]; exact Or.inl ⟨e, rfl, hee⟩
        · rw [hr]
          refine Or.inr ⟨_, rfl, by simp [hlen'], ?_⟩
          intro p hmem
          rcases List.mem_cons.1 hmem with rfl | hmem
          · have := randint0_range ho
            exact ⟨len, hlen, rfl, fun _ => by simp only; omega, fun _ => by simp only; omega⟩
          · exact hp p hmem

theorem sampleSeq_ok {s : Fifo} {l : Dict Int Nat} {tc : Int} {r : Nat → Nat}
    (h1 : s.ids = l.keys) (h2 : s.lens = l) (htc : 0 ≤ tc) {left k ep : Nat} {off : Int}
    (hoff : off = 0 ∨ (0 ≤ off ∧ ∀ id len, s.episodeAt ep = .ok (id, len) → off + tc ≤ len)) :
    (∃ e, sampleSeq s tc r left k ep off = .error e ∧ (e = .zeroDivision ∨ e = .valueError)) ∨
    ∃ pts, sampleSeq s tc r left k ep off = .ok pts ∧ pts.length = left ∧
      ∀ p ∈ pts, PointOk l tc p := by
  induction left generalizing k ep off with
  | zero => exact Or.inr ⟨[], rfl, rfl, by simp⟩
  | succ left ih =>
    unfold sampleSeq
    rcases episodeAt_cases ep h1 h2 with he | ⟨id, len, he, hlen⟩
    · rw [he]; exact Or.inl ⟨_, rfl, Or.inl rfl⟩
    · rw [he]
      simp only [bind, Except.bind]
      cases ho : s.seqOffset tc (r k) len off with
      | error e =>
        refine Or.inl ⟨_, rfl, Or.inr ?_⟩
        unfold seqOffset at ho
        split at ho
        · exact randint0_err ho
        · simp at ho
      | ok off1 =>
        simp only
        have hpt : PointOk l tc (id, off1, off1 + tc) := by
          refine ⟨len, hlen, rfl, fun hle => ?_, fun hle => ?_⟩
          all_goals
            unfold seqOffset at ho
            simp only
            split at ho
            · have := randint0_range ho; omega
            · injection ho with ho; subst ho
              rcases hoff with h0 | ⟨h0, h3⟩
              · omega
              · have := h3 id len he; omega
        have hrest := ih (k := k + 1) (ep := (seqNext tc len ep off).1)
            (off := (seqNext tc len ep off).2) (by
          unfold seqNext
          simp only
          split
          · exact Or.inl rfl
          · rename_i hle
            right
            refine ⟨?_, ?_⟩
            · rcases hoff with h0 | ⟨h0, _⟩ <;> simp only <;> omega
            · intro id' len' he'
              simp only at he' ⊢
              rw [he] at he'
              injection he' with he'
              injection he' with _ he'
              omega)
        rcases hrest with ⟨e, hr, hee⟩ | ⟨pts, hr, hlen', hp⟩
        · rw [hr]; exact Or.inl ⟨e, rfl, hee⟩
        · rw [hr]
          refine Or.inr ⟨_, rfl, by simp [hlen'], ?_⟩
          intro p hmem
          rcases List.mem_cons.1 hmem with rfl | hmem
          · exact hpt
          · exact hp p hmem

end Fifo

namespace Strategy

/-- Outcomes of sampling with a consistent strategy. -/
theorem sample_cases {s : Strategy} {l : Dict Int Nat} {count n : Nat} {c r : Nat → Nat}
    (hn : l.keys.Nodup) (h : s.Tracks l) :
    (∃ s' e, s.sample count n c r = (s', .error e) ∧
      (e = .zeroDivision ∨ e = .valueError ∨ e = .overflowError)) ∨
    ∃ s' pts, s.sample count n c r = (s', .ok pts) ∧ pts.length = count ∧
      ∀ p ∈ pts, PointOk l n p := by
  cases s with
  | fifo s =>
    obtain ⟨h1, h2, h3⟩ := h
    simp only [sample, Fifo.sample]
    split
    · rcases Fifo.samplePerEpisode_ok (tc := n) (r := r) h1 h2 (left := count) (k := 0) with
        ⟨e, he, hee⟩ | ⟨pts, he, hp⟩
      · exact Or.inl ⟨_, e, by rw [he], by grind⟩
      · exact Or.inr ⟨_, pts, by rw [he], hp⟩
    · rcases Fifo.sampleSeq_ok (tc := n) (r := r) h1 h2 (by omega) (left := count) (k := 0) (ep := 0)
        (off := 0) (Or.inl rfl) with ⟨e, he, hee⟩ | ⟨pts, he, hp⟩
      · exact Or.inl ⟨_, e, by rw [he], by grind⟩
      · exact Or.inr ⟨_, pts, by rw [he], hp⟩
  | uniform s =>
    simp only [sample, Uniform.sample]
    cases hr : s.refresh with
    | mk s1 y =>
      cases y with
      | error e =>
        refine Or.inl ⟨_, e, rfl, Or.inr (Or.inr ?_)⟩
        unfold Uniform.refresh at hr
        split at hr
        · unfold Uniform.rebalance at hr
          simp only at hr
          split at hr
          · simp at hr
          · injection hr with _ hr; injection hr with hr; exact hr.symm
        · simp at hr
      | ok u =>
        obtain ⟨_, h2, h3, h4⟩ := refresh_uniform h hr
        simp only [Res.andThen_ok, h2, h3, h4]
        cases hc : Uniform.choices l.keys l.values c count 0 with
        | error e =>
          exact Or.inl ⟨_, e, rfl, Or.inr (Or.inl (Uniform.choices_err hc))⟩
        | ok ids =>
          obtain ⟨k1, k2⟩ := Uniform.choices_ok hn hc
          obtain ⟨pts, hp⟩ := Uniform.points_total (tc := n) (r := r) (k := 0)
            (fun id hid => (k2 id hid).imp fun _ h => h.1)
          obtain ⟨p1, p2⟩ := Uniform.points_ok hp
          refine Or.inr ⟨uniform s1, pts, ?_, ?_, p2⟩
          · simp only [bind, Except.bind, hp, Res.lift]
          · rw [← k1, ← p1, List.length_map]
  | coverage s =>
    simp only [sample, Coverage.sample]
    cases hr : s.refresh with
    | mk s1 y =>
      cases y with
      | error e =>
        refine Or.inl ⟨_, e, rfl, ?_⟩
        unfold Coverage.refresh at hr
        split at hr
        · unfold Coverage.rebalance at hr
          simp only at hr
          split at hr
          · split at hr
            · simp at hr
            · rename_i hall
              exfalso; apply hall
              rw [List.all_eq_true]
              intro k hk
              rw [contains_iff]
              obtain ⟨h1, h2, _⟩ := h
              rw [h2, ← h1]; exact hk
          · injection hr with _ hr; injection hr with hr; exact Or.inr (Or.inr hr.symm)
        · simp at hr
      | ok u =>
        obtain ⟨⟨_, hcnt, _⟩, h2, h3, h4, _⟩ := refresh_coverage h hr
        simp only [Res.andThen_ok, h2, h3, h4]
        cases hc : Uniform.choices l.keys l.values c count 0 with
        | error e =>
          exact Or.inl ⟨_, e, rfl, Or.inr (Or.inl (Uniform.choices_err hc))⟩
        | ok ids =>
          obtain ⟨k1, k2⟩ := Uniform.choices_ok hn hc
          obtain ⟨pts, hp⟩ := Uniform.points_total (tc := n) (r := r) (k := 0)
            (fun id hid => (k2 id hid).imp fun _ h => h.1)
          obtain ⟨p1, p2⟩ := Uniform.points_ok hp
          have := Coverage.points_eq (l := l) (tc := n) (r := r) (ids := ids) (k := 0)
            (counts := s1.counts) (by
              intro id hid
              obtain ⟨w, hw, _⟩ := k2 id hid
              rw [hcnt]; exact mem_keys_of_get? hw)
          refine Or.inr ⟨{ s1 with counts := (Coverage.points l n r ids 0 s1.counts).1 } |> coverage,
            pts, ?_, ?_, p2⟩
          · simp only [Res.lift, this, hp, h2, h3, h4]
          · rw [← k1, ← p1, List.length_map]

end Strategy

end Verif
