import Verif.Lemmas.Eject
import Verif.Lemmas.Points

set_option linter.unusedSimpArgs false

namespace Verif

open Dict Spec

theorem flatMap_congr' {α : Type u} {β : Type v} {l : List α} {f g : α → List β}
    (h : ∀ a ∈ l, f a = g a) : l.flatMap f = l.flatMap g := by
  rw [List.flatMap_def, List.flatMap_def, List.map_congr_left h]

theorem flatMap_range {α : Type u} {β : Type v} (l : List α) (f : α → List β) :
    ((List.range l.length).flatMap fun i => match l[i]? with | some p => f p | none => [])
      = l.flatMap f := by
  induction l with
  | nil => rfl
  | cons a l ih =>
    rw [List.length_cons, List.range_succ_eq_map, List.flatMap_cons, List.flatMap_map, List.flatMap_cons,
      ← ih]
    simp

theorem get?_getElem {l : Dict Int Nat} (hn : l.keys.Nodup) {i : Nat} {id : Int} {w : Nat}
    (h : l[i]? = some (id, w)) : l.get? id = some w ∧ l.keys[i]? = some id := by
  refine ⟨get?_of_mem hn (List.mem_of_getElem? h), ?_⟩
  simp [keys, h]

namespace Fifo

theorem episodeAt_eq {s : Fifo} {l : Dict Int Nat} (hn : l.keys.Nodup) (h1 : s.ids = l.keys)
    (h2 : s.lens = l) {k : Nat} {id : Int} {w : Nat} (h : l[k % l.length]? = some (id, w)) :
    s.episodeAt k = .ok (id, w) := by
  obtain ⟨h3, h4⟩ := get?_getElem hn h
  have hlen : l.keys.length = l.length := by simp [keys]
  unfold episodeAt
  rw [h1, h2, hlen, if_neg, h4]
  · simp only [h3]
  · intro h0
    rw [h0] at h
    have : l = [] := List.length_eq_zero_iff.1 h0
    rw [this] at h; simp at h

theorem samplePerEpisode_eq {s : Fifo} {l : Dict Int Nat} {tc : Nat} {r : Nat → Nat}
    (hn : l.keys.Nodup) (h1 : s.ids = l.keys) (h2 : s.lens = l) (hne : l ≠ [])
    (hlong : ∀ p ∈ l, tc ≤ p.2) (left k : Nat) :
    ∃ pts, samplePerEpisode s tc r left k = .ok pts ∧ pts.length = left ∧
      ∀ i, i < left → ∃ id len off, l[(k + i) % l.length]? = some (id, len) ∧ 0 ≤ off ∧
        off + (tc : Int) ≤ len ∧ pts[i]? = some (id, off, off + (tc : Int)) := by
  have hpos : 0 < l.length := List.length_pos_iff.2 hne
  induction left generalizing k with
  | zero => exact ⟨[], rfl, rfl, fun i hi => absurd hi (by omega)⟩
  | succ left ih =>
    obtain ⟨pts, h3, h4, h5⟩ := ih (k + 1)
    have hlt := Nat.mod_lt k hpos
    have hg := List.getElem?_eq_getElem hlt
    obtain ⟨⟨id, len⟩, hp⟩ : ∃ p, l[k % l.length]? = some p := ⟨_, hg⟩
    have hle := hlong _ (List.mem_of_getElem? hp)
    simp only at hle
    cases ho : randint0 (r k) ((len : Int) - tc) with
    | error e =>
      unfold randint0 at ho
      split at ho
      · omega
      · simp at ho
    | ok off =>
      have hrange := randint0_range ho
      refine ⟨(id, off, off + tc) :: pts, ?_, by simp [h4], ?_⟩
      · unfold samplePerEpisode
        rw [episodeAt_eq hn h1 h2 hp]
        simp only [bind, Except.bind, ho, h3]
      · intro i hi
        cases i with
        | zero => exact ⟨id, len, off, by simpa using hp, hrange.1, by omega, by simp⟩
        | succ i =>
          obtain ⟨a, b, c, h6, h7, h8, h9⟩ := h5 i (by omega)
          exact ⟨a, b, c, by rw [← h6]; congr 2; omega, h7, h8, by simpa using h9⟩

end Fifo

/-! ## Sequential tiling -/

/-- windows of the `m` episodes from number `ep` on, cyclically -/
def ahead (tc : Nat) (l : Dict Int Nat) (ep m : Nat) : List SamplePoint :=
  (List.range m).flatMap fun i => match l[(ep + i) % l.length]? with
    | some p => tilesOf tc p
    | none => []

theorem ahead_succ (tc : Nat) (l : Dict Int Nat) (ep m : Nat) :
    ahead tc l ep (m + 1) = (match l[ep % l.length]? with | some p => tilesOf tc p | none => [])
      ++ ahead tc l (ep + 1) m := by
  unfold ahead
  rw [List.range_succ_eq_map, List.flatMap_cons, List.flatMap_map]
  simp only [Nat.add_zero]
  congr 1
  apply flatMap_congr'
  intro i _
  have : ep + i.succ = ep + 1 + i := by omega
  rw [this]

theorem tilesOf_length (tc : Nat) (p : Int × Nat) : (tilesOf tc p).length = p.2 / tc := by
  simp [tilesOf]

theorem tilesOf_getElem? (tc : Nat) (p : Int × Nat) {j : Nat} (h : j < p.2 / tc) :
    (tilesOf tc p)[j]? = some (p.1, ((j * tc : Nat) : Int), ((j * tc + tc : Nat) : Int)) := by
  unfold tilesOf
  rw [List.getElem?_map, List.getElem?_range h]
  rfl

theorem length_ahead_ge {tc : Nat} {l : Dict Int Nat} (htc : 0 < tc) (hne : l ≠ [])
    (hlong : ∀ p ∈ l, tc ≤ p.2) (ep m : Nat) : m ≤ (ahead tc l ep m).length := by
  have hpos : 0 < l.length := List.length_pos_iff.2 hne
  induction m generalizing ep with
  | zero => omega
  | succ m ih =>
    rw [ahead_succ, List.length_append]
    have := ih (ep + 1)
    obtain ⟨p, hp⟩ : ∃ p, l[ep % l.length]? = some p :=
      ⟨_, List.getElem?_eq_getElem (Nat.mod_lt _ hpos)⟩
    rw [hp]
    simp only [tilesOf_length]
    have := Nat.div_pos (hlong p (List.mem_of_getElem? hp)) htc
    omega

theorem Fifo.sampleSeq_eq {s : Fifo} {l : Dict Int Nat} {tc : Nat} {r : Nat → Nat}
    (hn : l.keys.Nodup) (h1 : s.ids = l.keys) (h2 : s.lens = l) (hro : s.randomOffset = false)
    (htc : 0 < tc) (hne : l ≠ []) (hlong : ∀ p ∈ l, tc ≤ p.2) (left k ep j m : Nat) (hm : left ≤ m)
    (hj : ∀ p, l[ep % l.length]? = some p → j < p.2 / tc) :
    sampleSeq s tc r left k ep ((j * tc : Nat) : Int)
      = .ok (((ahead tc l ep (m + 1)).drop j).take left) := by
  have hpos : 0 < l.length := List.length_pos_iff.2 hne
  induction left generalizing k ep j m with
  | zero => simp [sampleSeq]
  | succ left ih =>
    obtain ⟨⟨id, len⟩, hp⟩ : ∃ p, l[ep % l.length]? = some p :=
      ⟨_, List.getElem?_eq_getElem (Nat.mod_lt _ hpos)⟩
    have hj' := hj _ hp
    simp only at hj'
    unfold sampleSeq
    rw [Fifo.episodeAt_eq hn h1 h2 hp]
    simp only [bind, Except.bind, seqOffset, hro, Bool.false_eq_true, if_false]
    have hhead : (ahead tc l ep (m + 1)).drop j
        = (id, ((j * tc : Nat) : Int), ((j * tc + tc : Nat) : Int))
          :: (ahead tc l ep (m + 1)).drop (j + 1) := by
      have hlt : j < (ahead tc l ep (m + 1)).length := by
        rw [ahead_succ, hp, List.length_append]; simp only [tilesOf_length]; omega
      rw [List.drop_eq_getElem_cons hlt]
      congr 1
      have : (ahead tc l ep (m + 1))[j]? = some (id, ((j * tc : Nat) : Int), ((j * tc + tc : Nat) : Int)) := by
        rw [ahead_succ, hp, List.getElem?_append_left (by simpa only [tilesOf_length] using hj')]
        exact tilesOf_getElem? tc (id, len) hj'
      rw [List.getElem?_eq_getElem hlt] at this
      exact Option.some.inj this
    have hrest : sampleSeq s tc r left (k + 1) (seqNext tc len ep ((j * tc : Nat) : Int)).1
        (seqNext tc len ep ((j * tc : Nat) : Int)).2
        = .ok (((ahead tc l ep (m + 1)).drop (j + 1)).take left) := by
      unfold seqNext
      simp only
      by_cases hlast : j + 1 < len / tc
      · have hfit : (j + 1 + 1) * tc ≤ len := (Nat.le_div_iff_mul_le htc).1 hlast
        have hcond : ¬ (((j * tc : Nat) : Int) + tc + tc > len) := by
          have : (j + 1 + 1) * tc = j * tc + tc + tc := by rw [Nat.succ_mul, Nat.succ_mul]
          omega
        rw [if_neg hcond]
        have hoff : ((j * tc : Nat) : Int) + (tc : Int) = (((j + 1) * tc : Nat) : Int) := by
          rw [Nat.succ_mul]; push_cast; rfl
        simp only [hoff]
        exact ih (k + 1) ep (j + 1) m (by omega) (by
          intro p hp'; rw [hp] at hp'; injection hp' with hp'; subst hp'; exact hlast)
      · have hnofit : ¬ (j + 1 + 1) * tc ≤ len := fun h => hlast ((Nat.le_div_iff_mul_le htc).2 h)
        have hcond : ((j * tc : Nat) : Int) + tc + tc > len := by
          have : (j + 1 + 1) * tc = j * tc + tc + tc := by rw [Nat.succ_mul, Nat.succ_mul]
          omega
        rw [if_pos hcond]
        cases m with
        | zero => omega
        | succ m =>
          have := ih (k + 1) (ep + 1) 0 m (by omega) (by
            intro p hp'
            exact Nat.div_pos (hlong p (List.mem_of_getElem? hp')) htc)
          simp only [Nat.zero_mul, List.drop_zero] at this
          have h0 : (((0 : Nat) : Int)) = (0 : Int) := rfl
          rw [h0] at this
          rw [this]
          congr 2
          rw [ahead_succ tc l ep (m + 1), hp]
          simp only
          have hl : (tilesOf tc (id, len)).length = j + 1 := by
            rw [tilesOf_length]; simp only; omega
          rw [← hl, List.drop_left]
    rw [hrest]
    simp only
    rw [hhead, List.take_succ_cons]
    have : ((j * tc : Nat) : Int) + (tc : Int) = ((j * tc + tc : Nat) : Int) := by push_cast; rfl
    rw [this]

/-- One round over all episodes. -/
theorem ahead_round (tc : Nat) (l : Dict Int Nat) (c m : Nat) :
    ahead tc l (c * l.length) (l.length + m) = tiles tc l ++ ahead tc l ((c + 1) * l.length) m := by
  unfold ahead
  rw [List.range_add, List.flatMap_append, List.flatMap_map]
  congr 1
  · unfold tiles
    rw [← flatMap_range l]
    apply flatMap_congr'
    intro i hi
    have hi := List.mem_range.1 hi
    have : (c * l.length + i) % l.length = i := by
      rw [Nat.mul_comm, Nat.mul_add_mod]; exact Nat.mod_eq_of_lt hi
    rw [this]
    cases l[i]? <;> rfl
  · apply flatMap_congr'
    intro i _
    have : c * l.length + (l.length + i) = (c + 1) * l.length + i := by rw [Nat.succ_mul]; omega
    rw [this]

/-- Position `i` of the cyclic enumeration. -/
theorem ahead_getElem? {tc : Nat} {l : Dict Int Nat} (htc : 0 < tc) (hne : l ≠ [])
    (hlong : ∀ p ∈ l, tc ≤ p.2) (i c m : Nat) (hi : i < m) :
    (ahead tc l (c * l.length) m)[i]? = (tiles tc l)[i % (tiles tc l).length]? := by
  have hpos : 0 < l.length := List.length_pos_iff.2 hne
  have htl : l.length ≤ (tiles tc l).length := by
    have h1 := length_ahead_ge htc hne hlong 0 l.length
    have h2 := ahead_round tc l 0 0
    simp only [Nat.zero_mul, Nat.add_zero] at h2
    rw [h2] at h1
    have h3 : ahead tc l ((0 + 1) * l.length) 0 = [] := by simp [ahead]
    rw [h3, List.append_nil] at h1
    exact h1
  induction i using Nat.strongRecOn generalizing c m with
  | _ i ih =>
    -- extend to at least one round
    have hext : ∀ m', m ≤ m' →
        (ahead tc l (c * l.length) m)[i]? = (ahead tc l (c * l.length) m')[i]? := by
      intro m' hm'
      obtain ⟨x, rfl⟩ := Nat.exists_eq_add_of_le hm'
      have hsplit : ahead tc l (c * l.length) (m + x)
          = ahead tc l (c * l.length) m ++ ahead tc l (c * l.length + m) x := by
        unfold ahead
        rw [List.range_add, List.flatMap_append, List.flatMap_map]
        congr 1
        apply flatMap_congr'
        intro a _
        rw [Nat.add_assoc]
      rw [hsplit, List.getElem?_append_left]
      have := length_ahead_ge htc hne hlong (c * l.length) m
      omega
    rw [hext (l.length + m) (by omega), ahead_round]
    by_cases hlt : i < (tiles tc l).length
    · rw [List.getElem?_append_left hlt, Nat.mod_eq_of_lt hlt]
    · rw [List.getElem?_append_right (by omega), ih (i - (tiles tc l).length) (by omega) (c + 1) m (by omega)]
      congr 1
      conv => rhs; rw [← Nat.sub_add_cancel (Nat.not_lt.1 hlt), Nat.add_mod_right]

/-! ## Counting in a round robin -/

theorem count_mod (n j : Nat) (hj : j < n) (c : Nat) :
    ((List.range c).map (· % n)).count j = c / n + if j < c % n then 1 else 0 := by
  have hn : 0 < n := by omega
  induction c with
  | zero => simp
  | succ c ih =>
    rw [List.range_succ, List.map_append, List.count_append, ih]
    simp only [List.map_cons, List.map_nil, List.count_singleton, beq_iff_eq]
    have hdm := Nat.div_add_mod c n
    have hlt := Nat.mod_lt c hn
    by_cases hw : c % n + 1 < n
    · have e1 : (c + 1) / n = c / n := by
        apply Nat.div_eq_of_lt_le
        · rw [Nat.mul_comm]; omega
        · rw [Nat.succ_mul, Nat.mul_comm]; omega
      have e2 : (c + 1) % n = c % n + 1 := by
        rw [Nat.add_mod, Nat.mod_eq_of_lt (a := 1) (by omega), Nat.mod_eq_of_lt hw]
      rw [e1, e2]
      split <;> split <;> split <;> omega
    · have e0 : c + 1 = n * (c / n + 1) := by rw [Nat.mul_succ]; omega
      have e1 : (c + 1) / n = c / n + 1 := by
        rw [e0, Nat.mul_div_cancel_left _ hn]
      have e2 : (c + 1) % n = 0 := by rw [e0]; exact Nat.mul_mod_right _ _
      rw [e1, e2]
      split <;> split <;> split <;> omega

end Verif

namespace Verif

open Dict Spec

/-- With random offsets the same sequences are visited. -/
theorem Fifo.sampleSeq_random {s : Fifo} {l : Dict Int Nat} {tc : Nat} {r : Nat → Nat}
    (hn : l.keys.Nodup) (h1 : s.ids = l.keys) (h2 : s.lens = l) (hne : l ≠ [])
    (hlong : ∀ p ∈ l, tc ≤ p.2) (left k ep : Nat) (off : Int) {pts : List SamplePoint}
    (h : sampleSeq { s with randomOffset := false } tc r left k ep off = .ok pts) :
    ∃ pts', sampleSeq s tc r left k ep off = .ok pts' ∧ pts'.map Prod.fst = pts.map Prod.fst := by
  have hpos : 0 < l.length := List.length_pos_iff.2 hne
  induction left generalizing k ep off pts with
  | zero =>
    simp only [sampleSeq, Except.ok.injEq] at h
    subst h
    exact ⟨[], rfl, rfl⟩
  | succ left ih =>
    obtain ⟨⟨id, len⟩, hp⟩ : ∃ p, l[ep % l.length]? = some p :=
      ⟨_, List.getElem?_eq_getElem (Nat.mod_lt _ hpos)⟩
    have hle := hlong _ (List.mem_of_getElem? hp)
    simp only at hle
    unfold sampleSeq at h ⊢
    rw [Fifo.episodeAt_eq (s := { s with randomOffset := false }) hn h1 h2 hp] at h
    rw [Fifo.episodeAt_eq hn h1 h2 hp]
    simp only [bind, Except.bind, seqOffset, Bool.false_eq_true, if_false] at h
    cases hr : sampleSeq { s with randomOffset := false } tc r left (k + 1)
        (seqNext tc len ep off).1 (seqNext tc len ep off).2 with
    | error e => rw [hr] at h; simp at h
    | ok rest =>
      rw [hr] at h
      simp only [Except.ok.injEq] at h
      subst h
      obtain ⟨pts', h3, h4⟩ := ih _ _ _ hr
      have ho : ∃ off', s.seqOffset tc (r k) len off = .ok off' := by
        unfold seqOffset
        split
        · unfold randint0
          rw [if_neg (by omega)]
          exact ⟨_, rfl⟩
        · exact ⟨_, rfl⟩
      obtain ⟨off', ho⟩ := ho
      simp only [bind, Except.bind, ho, h3]
      exact ⟨_, rfl, by simp [h4]⟩

/-- Any strategy can be made to draw any tracked non-empty sequence. -/
theorem Strategy.sample_reaches {s : Strategy} {l : Dict Int Nat} (hn : l.keys.Nodup)
    (h : s.Tracks l) {tc : Nat} (htc : 0 < tc) (hlong : ∀ p ∈ l, tc ≤ p.2)
    (hfit : ∀ id ∈ l.keys, fitsInt64 id = true) {id : Int} (hid : id ∈ l.keys) :
    ∃ count c r s' pts, s.sample count tc c r = (s', .ok pts) ∧ id ∈ pts.map Prod.fst := by
  obtain ⟨w, hw⟩ := get?_isSome_of_mem hid
  have hm := mem_of_get? hw
  have hwpos : 0 < w := by have := hlong _ hm; simp only at this; omega
  have hne : l ≠ [] := by rintro rfl; simp at hid
  cases s with
  | fifo s =>
    obtain ⟨h1, h2, _⟩ := h
    obtain ⟨i, hi, hget⟩ := List.mem_iff_getElem.1 hm
    by_cases hp : s.perEpisode = true
    · obtain ⟨pts, h3, h4, h5⟩ := Fifo.samplePerEpisode_eq (r := fun _ => 0) hn h1 h2 hne hlong (i + 1) 0
      refine ⟨i + 1, fun _ => 0, fun _ => 0, .fifo s, pts, ?_, ?_⟩
      · simp only [Strategy.sample, Fifo.sample, hp, if_true, h3]
      · obtain ⟨id', len, off, h6, _, _, h7⟩ := h5 i (by omega)
        rw [Nat.zero_add, Nat.mod_eq_of_lt hi, List.getElem?_eq_getElem hi, hget] at h6
        injection h6 with h6
        injection h6 with h6 _
        subst h6
        exact List.mem_map.2 ⟨_, List.mem_of_getElem? h7, rfl⟩
    · have hseq := Fifo.sampleSeq_eq (s := { s with randomOffset := false }) (r := fun _ => 0) hn h1 h2
        rfl htc hne hlong (tiles tc l).length 0 0 0 (tiles tc l).length (Nat.le_refl _)
        (fun p hp => Nat.div_pos (hlong p (List.mem_of_getElem? hp)) htc)
      simp only [Nat.zero_mul, List.drop_zero] at hseq
      have h0 : ((0 : Nat) : Int) = 0 := rfl
      rw [h0] at hseq
      obtain ⟨pts', h3, h4⟩ := Fifo.sampleSeq_random hn h1 h2 hne hlong _ _ _ _ hseq
      refine ⟨(tiles tc l).length, fun _ => 0, fun _ => 0, .fifo s, pts', ?_, ?_⟩
      · simp only [Strategy.sample, Fifo.sample, hp, if_false, h3]
        rfl
      · rw [h4]
        have hmem : (id, ((0 * tc : Nat) : Int), ((0 * tc + tc : Nat) : Int)) ∈ tiles tc l := by
          unfold tiles
          refine List.mem_flatMap.2 ⟨(id, w), hm, ?_⟩
          unfold tilesOf
          refine List.mem_map.2 ⟨0, List.mem_range.2 (Nat.div_pos (hlong _ hm) htc), rfl⟩
        obtain ⟨j, hj, hjget⟩ := List.mem_iff_getElem.1 hmem
        have := ahead_getElem? htc hne hlong j 0 ((tiles tc l).length + 1) (by omega)
        rw [Nat.zero_mul, Nat.mod_eq_of_lt hj, List.getElem?_eq_getElem hj, hjget] at this
        have hmem2 := List.mem_of_getElem? ((List.getElem?_take_of_lt hj).trans this)
        exact List.mem_map.2 ⟨_, hmem2, rfl⟩
  | uniform s =>
    obtain ⟨d, hd⟩ := choice_reaches hm hwpos
    obtain ⟨s1, hr⟩ := refresh_uniform_ok h hfit
    obtain ⟨_, h2, h3, h4⟩ := refresh_uniform h hr
    obtain ⟨pts, hp⟩ := Uniform.points_total (l := l) (tc := tc) (r := fun _ => 0) (ids := [id]) (k := 0)
      (by intro j hj; simp at hj; subst hj; exact ⟨w, hw⟩)
    refine ⟨1, fun _ => d, fun _ => 0, .uniform s1, pts, ?_, ?_⟩
    · simp only [Strategy.sample, Uniform.sample, hr, Res.andThen_ok, h2, h3, h4, Uniform.choices, hd,
        bind, Except.bind, hp, Res.lift]
    · rw [(Uniform.points_ok hp).1]; simp
  | coverage s =>
    obtain ⟨d, hd⟩ := choice_reaches hm hwpos
    obtain ⟨s1, hr⟩ := refresh_coverage_ok h hfit
    obtain ⟨⟨_, hcnt, _⟩, h2, h3, h4, _⟩ := refresh_coverage h hr
    obtain ⟨pts, hp⟩ := Uniform.points_total (l := l) (tc := tc) (r := fun _ => 0) (ids := [id]) (k := 0)
      (by intro j hj; simp at hj; subst hj; exact ⟨w, hw⟩)
    have hcov := Coverage.points_eq (l := l) (tc := tc) (r := fun _ => 0) (ids := [id]) (k := 0)
      (counts := s1.counts) (by intro j hj; simp at hj; subst hj; rw [hcnt]; exact hid)
    refine ⟨1, fun _ => d, fun _ => 0, .coverage { s1 with
      counts := (Coverage.points l tc (fun _ => 0) [id] 0 s1.counts).1 }, pts, ?_, ?_⟩
    · simp only [Strategy.sample, Coverage.sample, hr, Res.andThen_ok, h2, h3, h4, Uniform.choices, hd,
        bind, Except.bind, Res.lift]
      rw [← hp, ← hcov]
    · rw [(Uniform.points_ok hp).1]; simp

end Verif
