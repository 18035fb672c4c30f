import Verif.Lemmas.FifoSample

/-!
# Strategies on their own: C15, C16, C19, C20

`Tracked s l` (`Verif/Model/Tracked.lean`): `s` is any strategy object after any history of calls
that leaves the sequences `l` tracked.
-/

namespace Verif.Props

open Verif Spec

/-! ## A concrete strategy of each kind, tracking three sequences after one was forgotten -/

namespace ExS

/-- Track, as a computed step. -/
theorem step {s : Strategy} {l : Dict Int Nat} (h : Tracked s l) (id : Int) (len : Nat)
    (hid : id ∉ l.keys) (hok : (s.track id len).2 = .ok ()) :
    Tracked (s.track id len).1 (l ++ [(id, len)]) := Tracked.track h hid (Prod.ext rfl hok)

def build (s : Strategy) : Strategy :=
  (((((((s.track 4 9).1.track 1 2).1.track 5 4).1.forget 4).1.track 3 3).1))

def l : Dict Int Nat := [(1, 2), (5, 4), (3, 3)]

theorem tracked {s : Strategy} (hs : s.Fresh) : Tracked (build s) l := by
  have h1 := step (Tracked.fresh hs) 4 9 (by decide) (by cases hs <;> rfl)
  have h2 := step h1 1 2 (by decide) (by cases hs <;> rfl)
  have h3 := step h2 5 4 (by decide) (by cases hs <;> rfl)
  have h4 := Tracked.forget (id := 4) h3 (by decide) (Prod.ext rfl (by cases hs <;> rfl))
  exact step h4 3 3 (by decide) (by cases hs <;> rfl)

end ExS

/-! ## C19 -/

/-- C19: an ejection by any strategy frees enough, with distinct tracked sequences, and not without
the last one picked. -/
theorem C19_eject_frees {s s' : Strategy} {l : Dict Int Nat} (h : Tracked s l) {count : Int}
    {draws : List Nat} {ids : List Int} (he : s.eject count draws = (s', .ok ids)) :
    Frees l count ids :=
  (Strategy.tracks_eject h.tracks.2 h.tracks.1 he).2.frees h.tracks.2

/-- C19: an ejection leaves the tracked set alone (forgetting is a separate call): the next one picks from all that was tracked. -/
theorem C19_eject_keeps_tracked {s s' : Strategy} {l : Dict Int Nat} (h : Tracked s l) {count : Int}
    {draws : List Nat} {ids : List Int} (he : s.eject count draws = (s', .ok ids)) :
    s'.Tracks l ∧ ∀ {s'' : Strategy} {count' : Int} {draws' : List Nat} {ids' : List Int},
      s'.eject count' draws' = (s'', .ok ids') → Frees l count' ids' :=
  have h' : Tracked s' l := Tracked.eject h he (by simp)
  ⟨h'.tracks.1, fun he' => C19_eject_frees h' he'⟩

/-- C19: the failures of an ejection: a FIFO one because all together is not enough, a random one
because there were not enough draws, or because everything tracked is empty, or because an identity
does not fit int64. -/
theorem C19_eject_fails_only {s s' : Strategy} {l : Dict Int Nat} (h : Tracked s l) {count : Int}
    {draws : List Nat} {e : Err} (he : s.eject count draws = (s', .error e)) :
    (e = .indexError ∧ (trackedTotal l : Int) < count) ∨ e = .diverges ∨
      (e = .valueError ∧ trackedTotal l = 0) ∨ e = .overflowError :=
  Strategy.eject_err h.tracks.2 h.tracks.1 he

theorem eject_covered {s : Strategy} {l : Dict Int Nat} (ht : s.Tracks l) (hn : l.keys.Nodup)
    (hk : ∀ f, s ≠ .fifo f) {count : Int} (hc : count ≤ trackedTotal l) (hpos : 0 < trackedTotal l)
    (hfit : ∀ id ∈ l.keys, -2^63 ≤ id ∧ id < 2^63) {draws : List Nat}
    (hdraws : ∀ p ∈ l, 0 < p.2 → ∃ d ∈ draws, choice l.keys l.values d = .ok p.1) :
    ∃ s' ids, s.eject count draws = (s', .ok ids) := by
  have hfit' : ∀ id ∈ l.keys, fitsInt64 id = true := by
    intro id hid; simpa [fitsInt64] using hfit id hid
  have hdiv := Uniform.ejectLoop_diverges hn (draws := draws) (count := count) (acc := [])
    (fun p hp hw _ => hdraws p hp hw)
    (by rw [pickedTotal_eq hn (by simp)]; simp only [lenSum_nil]; push_cast; omega)
    (by simp) (by simp)
  have hcases := Uniform.ejectLoop_cases hn draws count []
  cases s with
  | fifo f => exact absurd rfl (hk f)
  | uniform s =>
    obtain ⟨s1, hr⟩ := Strategy.refresh_uniform_ok ht hfit'
    obtain ⟨_, h2, h3, h4⟩ := Strategy.refresh_uniform ht hr
    simp only [Strategy.eject, Uniform.eject, hr, Res.andThen_ok, h2, h3, h4]
    rcases hcases with ⟨out, h5⟩ | h5 | ⟨_, h6⟩
    · exact ⟨_, out, by rw [h5]; rfl⟩
    · exact absurd h5 hdiv
    · omega
  | coverage s =>
    obtain ⟨s1, hr⟩ := Strategy.refresh_coverage_ok ht hfit'
    obtain ⟨_, h2, h3, h4, _⟩ := Strategy.refresh_coverage ht hr
    simp only [Strategy.eject, Coverage.eject, hr, Res.andThen_ok, h2, h3, h4]
    rcases hcases with ⟨out, h5⟩ | h5 | ⟨_, h6⟩
    · exact ⟨_, out, by rw [h5]; rfl⟩
    · exact absurd h5 hdiv
    · omega

/-- C19: random ejection (uniform or coverage) succeeds as soon as the draws include every tracked
non-empty sequence, if the request is not more than what is tracked. So the loop ends with
probability one. -/
theorem C19_random_eject_succeeds {s : Strategy} {l : Dict Int Nat} (h : Tracked s l)
    (hk : ∀ f, s ≠ .fifo f) {count : Int} (hc : count ≤ trackedTotal l) (hpos : 0 < trackedTotal l)
    (hfit : ∀ id ∈ l.keys, -2^63 ≤ id ∧ id < 2^63) {draws : List Nat}
    (hdraws : ∀ p ∈ l, 0 < p.2 → ∃ d ∈ draws, choice l.keys l.values d = .ok p.1) :
    ∃ s' ids, s.eject count draws = (s', .ok ids) :=
  eject_covered h.tracks.1 h.tracks.2 hk hc hpos hfit hdraws

/-- C19: such draws exist. -/
theorem C19_draws_exist (l : Dict Int Nat) :
    ∃ draws : List Nat, ∀ p ∈ l, 0 < p.2 → ∃ d ∈ draws, choice l.keys l.values d = .ok p.1 := by
  have : ∀ l' : Dict Int Nat, (∀ p ∈ l', p ∈ l) →
      ∃ draws : List Nat, ∀ p ∈ l', 0 < p.2 → ∃ d ∈ draws, choice l.keys l.values d = .ok p.1 := by
    intro l'
    induction l' with
    | nil => intro _; exact ⟨[], by simp⟩
    | cons p l' ih =>
      intro hsub
      obtain ⟨ds, hds⟩ := ih (fun p hp => hsub p (by simp [hp]))
      by_cases hw : 0 < p.2
      · obtain ⟨d, hd⟩ := choice_reaches (l := l) (id := p.1) (w := p.2) (hsub p (by simp)) hw
        refine ⟨d :: ds, ?_⟩
        intro x hx hwx
        rcases List.mem_cons.1 hx with rfl | hx
        · exact ⟨d, by simp, hd⟩
        · obtain ⟨d', h1, h2⟩ := hds x hx hwx
          exact ⟨d', by simp [h1], h2⟩
      · refine ⟨ds, ?_⟩
        intro x hx hwx
        rcases List.mem_cons.1 hx with rfl | hx
        · exact absurd hwx hw
        · exact hds x hx hwx
  exact this l (fun _ h => h)

/-- C19: a random ejector never returns normally if more is requested than is tracked. -/
theorem C19_too_much {s s' : Strategy} {l : Dict Int Nat} (h : Tracked s l) {count : Int}
    (hc : (trackedTotal l : Int) < count) (draws : List Nat) (ids : List Int) :
    s.eject count draws ≠ (s', .ok ids) := by
  intro he
  have h1 := (C19_eject_frees h he).enough
  have h2 := pickedTotal_le l ids
  omega

example : ((ExS.build (.uniform {})).eject 5 [1, 1, 4, 0]).2 = .ok [5, 1] := by decide +kernel
example : ((ExS.build (.coverage {})).eject 5 [0, 0]).2 = .error .diverges := by decide +kernel
example := C19_random_eject_succeeds (count := 9) (draws := [0, 0, 1, 5]) (ExS.tracked .coverage)
  (by intro f; simp [ExS.build, Strategy.track, Strategy.forget, Res.lift]) (by decide) (by decide) (by decide) (by decide +kernel)

/-! ## C20 -/

/-- C20: FIFO ejection succeeds exactly if enough is tracked, and otherwise raises `IndexError`;
it does not depend on draws. -/
theorem C20_fifo_raises_iff {s : Fifo} {l : Dict Int Nat} (h : Tracked (.fifo s) l) (count : Int)
    (draws : List Nat) :
    (count ≤ trackedTotal l ∧ ∃ ids, (Strategy.fifo s).eject count draws = (.fifo s, .ok ids)) ∨
    ((trackedTotal l : Int) < count ∧
      (Strategy.fifo s).eject count draws = (.fifo s, .error .indexError)) := by
  obtain ⟨⟨h1, h2, _⟩, hn⟩ := h.tracks
  simp only [Strategy.eject, Fifo.eject, h1, h2]
  rcases Fifo.ejectLoop_complete (l := l) count l.keys (fun _ h => h) with ⟨h3, out, h4⟩ | ⟨h3, h4⟩
  · rw [lenSum_keys hn] at h3; exact Or.inl ⟨h3, out, by rw [h4]⟩
  · rw [lenSum_keys hn] at h3; exact Or.inr ⟨h3, by rw [h4]⟩

/-- C20: the answer is the shortest oldest-first prefix that is enough: a prefix of the tracked
sequences with enough total length, while every shorter prefix has too little. -/
theorem C20_fifo_shortest_prefix {s : Fifo} {s' : Strategy} {l : Dict Int Nat}
    (h : Tracked (.fifo s) l) {count : Int} {draws : List Nat} {ids : List Int}
    (he : (Strategy.fifo s).eject count draws = (s', .ok ids)) :
    ∃ k, ids = (l.take k).map Prod.fst ∧ count ≤ trackedTotal (l.take k) ∧
      ∀ j, j < k → (trackedTotal (l.take j) : Int) < count := by
  obtain ⟨⟨h1, h2, _⟩, hn⟩ := h.tracks
  simp only [Strategy.eject, Fifo.eject, h1, h2, Prod.mk.injEq] at he
  obtain ⟨rest, e1, e2, e3, e4⟩ := Fifo.ejectLoop_ok he.2
  have hmap : ∀ j, (Dict.keys l).take j = (l.take j).map Prod.fst := by
    intro j; simp [Dict.keys]
  have hsum : ∀ j, lenSum l ((l.take j).map Prod.fst) = trackedTotal (l.take j) := by
    intro j
    have : ∀ l' : Dict Int Nat, (∀ p ∈ l', p ∈ l) → lenSum l (l'.map Prod.fst) = trackedTotal l' := by
      intro l'
      induction l' with
      | nil => intro _; rfl
      | cons p l' ih =>
        intro hsub
        rw [List.map_cons, lenSum_cons, Dict.get?_of_mem hn (hsub p (by simp)),
          ih (fun p hp => hsub p (by simp [hp]))]
        simp [trackedTotal]
    exact this _ (fun p hp => List.mem_of_mem_take hp)
  have hids : ids = (l.take ids.length).map Prod.fst := by
    rw [← hmap, e1, List.take_left]
  refine ⟨ids.length, hids, ?_, ?_⟩
  · rw [← hsum, ← hids]; exact e3
  · intro j hj
    -- the prefix without the last one already has too little, and shorter ones have less
    have hne : ids ≠ [] := by intro h0; rw [h0] at hj; simp at hj
    have hlast := e4 ids.dropLast (ids.getLast hne) (List.dropLast_concat_getLast hne).symm
    have hdl : ids.dropLast = (l.take (ids.length - 1)).map Prod.fst := by
      rw [← hmap, e1, List.dropLast_eq_take]
      rw [List.take_append_of_le_length (by omega)]
    rw [hdl, hsum] at hlast
    have hmono : trackedTotal (l.take j) ≤ trackedTotal (l.take (ids.length - 1)) := by
      have : l.take j = (l.take (ids.length - 1)).take j := by
        rw [List.take_take, Nat.min_eq_left (by omega)]
      rw [this]
      unfold trackedTotal
      have h3 := List.take_append_drop j (l.take (ids.length - 1))
      conv => rhs; rw [← h3, List.map_append, List.sum_append]
      omega
    omega

example : ((ExS.build (.fifo {})).eject 3 []).2 = .ok [1, 5] := by decide +kernel
example : ((ExS.build (.fifo {})).eject 10 []).2 = .error .indexError := by decide +kernel
example : Tracked (ExS.build (.fifo {})) ExS.l := ExS.tracked (.fifo true true)

/-! ## C15 -/

/-- C15: per-episode FIFO sampling takes window number `i` from the sequence number `i` modulo the
number of sequences, oldest first, at an offset where the window fits. -/
theorem C15_round_robin {s : Fifo} {l : Dict Int Nat} (h : Tracked (.fifo s) l)
    (hp : s.perEpisode = true) (hne : l ≠ []) {tc : Nat} (hlong : ∀ p ∈ l, tc ≤ p.2) (count : Nat)
    (c r : Nat → Nat) :
    ∃ pts, (Strategy.fifo s).sample count tc c r = (.fifo s, .ok pts) ∧ pts.length = count ∧
      ∀ i, i < count → ∃ id len off, l[i % l.length]? = some (id, len) ∧ 0 ≤ off ∧
        off + (tc : Int) ≤ len ∧ pts[i]? = some (id, off, off + (tc : Int)) := by
  obtain ⟨⟨h1, h2, _⟩, hn⟩ := h.tracks
  obtain ⟨pts, h3, h4, h5⟩ := Fifo.samplePerEpisode_eq (r := r) hn h1 h2 hne hlong count 0
  refine ⟨pts, ?_, h4, ?_⟩
  · simp only [Strategy.sample, Fifo.sample, hp, if_true, h3]
  · simpa using h5

/-- C15: so the numbers of windows taken from two tracked sequences differ by at most one. -/
theorem C15_balanced {s s' : Strategy} {f : Fifo} {l : Dict Int Nat} (h : Tracked s l)
    (hs : s = .fifo f) (hp : f.perEpisode = true) {tc : Nat} (hlong : ∀ p ∈ l, tc ≤ p.2) {count : Nat}
    {c r : Nat → Nat} {pts : List SamplePoint} (hsam : s.sample count tc c r = (s', .ok pts))
    {a b : Int} (ha : a ∈ l.keys) (hb : b ∈ l.keys) :
    (pts.map Prod.fst).count a ≤ (pts.map Prod.fst).count b + 1 := by
  subst hs
  obtain ⟨ht, hn⟩ := h.tracks
  have hne : l ≠ [] := by rintro rfl; simp at ha
  obtain ⟨pts', h3, h4, h5⟩ := C15_round_robin h hp hne hlong count c r
  rw [h3] at hsam
  injection hsam with _ hsam
  injection hsam with hsam
  subst hsam
  have hpos : 0 < l.length := List.length_pos_iff.2 hne
  have hlk : l.keys.length = l.length := by simp [Dict.keys]
  have hmap : pts'.map Prod.fst = ((List.range count).map (· % l.length)).map
      (fun j => match l.keys[j]? with | some id => id | none => 0) := by
    apply List.ext_getElem?
    intro i
    by_cases hi : i < count
    · obtain ⟨id, len, off, h6, _, _, h7⟩ := h5 i hi
      have hk : l.keys[i % l.length]? = some id := by simp [Dict.keys, h6]
      simp [List.getElem?_map, h7, List.getElem?_range hi, hk]
    · rw [List.getElem?_eq_none (by simp; omega), List.getElem?_eq_none (by simp; omega)]
  have hcount : ∀ x, x ∈ l.keys → ∃ j, j < l.length ∧
      (pts'.map Prod.fst).count x = count / l.length + if j < count % l.length then 1 else 0 := by
    intro x hx
    obtain ⟨j, hj, hjx⟩ := List.mem_iff_getElem.1 hx
    refine ⟨j, by omega, ?_⟩
    rw [← count_mod l.length j (by omega) count, hmap, List.count_eq_countP, List.countP_map,
      List.count_eq_countP]
    apply List.countP_congr
    intro y hy
    obtain ⟨z, _, rfl⟩ := List.mem_map.1 hy
    have hz : z % l.length < l.keys.length := by rw [hlk]; exact Nat.mod_lt _ hpos
    simp only [Function.comp_apply, List.getElem?_eq_getElem hz, beq_iff_eq]
    constructor
    · intro he
      rw [← hjx] at he
      exact (List.getElem_inj hn).1 he
    · intro he; rw [← hjx]; congr 1
  obtain ⟨j, hj, h6⟩ := hcount a ha
  obtain ⟨k, hk, h7⟩ := hcount b hb
  rw [h6, h7]
  split <;> split <;> omega

/-- C15: and up to as many windows as there are sequences come from different sequences. -/
theorem C15_distinct {s s' : Strategy} {f : Fifo} {l : Dict Int Nat} (h : Tracked s l)
    (hs : s = .fifo f) (hp : f.perEpisode = true) {tc : Nat} (hlong : ∀ p ∈ l, tc ≤ p.2) {count : Nat}
    {c r : Nat → Nat} {pts : List SamplePoint} (hsam : s.sample count tc c r = (s', .ok pts))
    (hcount : count ≤ l.length) (hne : l ≠ []) : pts.map Prod.fst = l.keys.take count := by
  subst hs
  obtain ⟨pts', h3, h4, h5⟩ := C15_round_robin h hp hne hlong count c r
  rw [h3] at hsam
  injection hsam with _ hsam
  injection hsam with hsam
  subst hsam
  apply List.ext_getElem?
  intro i
  by_cases hi : i < count
  · obtain ⟨id, len, off, h6, _, _, h7⟩ := h5 i hi
    rw [Nat.mod_eq_of_lt (by omega)] at h6
    rw [List.getElem?_take_of_lt hi]
    simp [List.getElem?_map, h7, Dict.keys, h6]
  · rw [List.getElem?_eq_none (by simp; omega), List.getElem?_eq_none (by simp; omega)]

example : ((ExS.build (.fifo {})).sample 5 2 (fun _ => 0) (fun i => i)).2
    = .ok [(1, 0, 2), (5, 1, 3), (3, 0, 2), (1, 0, 2), (5, 1, 3)] := by decide +kernel

/-! ## C16 -/

/-- C16: sequential FIFO sampling enumerates, cyclically, all adjacent full windows of all
sequences, oldest first. -/
theorem C16_sequential_tiles {s : Fifo} {l : Dict Int Nat} (h : Tracked (.fifo s) l)
    (hp : s.perEpisode = false) (hro : s.randomOffset = false) (hne : l ≠ []) {tc : Nat}
    (htc : 0 < tc) (hlong : ∀ p ∈ l, tc ≤ p.2) (count : Nat) (c r : Nat → Nat) :
    ∃ pts, (Strategy.fifo s).sample count tc c r = (.fifo s, .ok pts) ∧ pts.length = count ∧
      ∀ i, i < count → pts[i]? = (tiles tc l)[i % (tiles tc l).length]? := by
  obtain ⟨⟨h1, h2, _⟩, hn⟩ := h.tracks
  have hseq := Fifo.sampleSeq_eq (r := r) hn h1 h2 hro htc hne hlong count 0 0 0 count
    (Nat.le_refl _) (fun p hp => Nat.div_pos (hlong p (List.mem_of_getElem? hp)) htc)
  simp only [Nat.zero_mul, List.drop_zero] at hseq
  have h0 : ((0 : Nat) : Int) = 0 := rfl
  rw [h0] at hseq
  refine ⟨(ahead tc l 0 (count + 1)).take count, ?_, ?_, ?_⟩
  · simp only [Strategy.sample, Fifo.sample, hp, Bool.false_eq_true, if_false, hseq]
  · rw [List.length_take, Nat.min_eq_left]
    have := length_ahead_ge htc hne hlong 0 (count + 1)
    omega
  · intro i hi
    rw [List.getElem?_take_of_lt hi]
    have := ahead_getElem? htc hne hlong i 0 (count + 1) (by omega)
    rw [Nat.zero_mul] at this
    exact this

example : tiles 2 ExS.l = [(1, 0, 2), (5, 0, 2), (5, 2, 4), (3, 0, 2)] := by decide
example : ((ExS.build (.fifo { perEpisode := false, randomOffset := false })).sample 6 2
    (fun _ => 0) (fun i => i)).2
    = .ok [(1, 0, 2), (5, 0, 2), (5, 2, 4), (3, 0, 2), (1, 0, 2), (5, 0, 2)] := by decide +kernel

end Verif.Props
