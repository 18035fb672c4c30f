import Verif.Model.Warmup
import Verif.Props.Replay

/-!
# Waiting for data (C80, C108)
-/

namespace Verif

namespace Warmup

open Spec Props

/-! ## C80 -/

/-- The loader needs this many transitions. -/
def Enough (cfg : Config) (r : Round) : Prop := ((cfg.loader.count * cfg.loader.length : Nat) : Int) ≤ r.size

/-- Nothing in this round ends the waiting. -/
structure Idle (cfg : Config) (r : Round) : Prop where
  short : ¬ Enough cfg r
  exports : cfg.exporter = true → r.exports = .ok ()
  stop : cfg.signal = true → r.stop = .ok false

theorem ready_iff (cfg : Config) (r : Round) :
    cfg.loader.isReady (D := Unit) ⟨r.size, fun _ _ => .ok []⟩ = true ↔ Enough cfg r := by
  simp [Loader.isReady, Enough]

theorem begin_idle {cfg : Config} {r : Round} (h : Idle cfg r) (rs : List Round) :
    beginTraining cfg (r :: rs) = ((beginTraining cfg rs).1, (if cfg.exporter then 1 else 0) + (beginTraining cfg rs).2) := by
  rw [beginTraining, if_neg (by rw [ready_iff]; exact h.short)]
  have h1 : exportsOf cfg r = .ok () := by
    unfold exportsOf
    split
    · next hc => exact h.exports hc
    · rfl
  have h2 : stopOf cfg r = .ok false := by
    unfold stopOf
    split
    · next hc => exact h.stop hc
    · rfl
  simp only [h1, h2]

theorem begin_prefix {cfg : Config} (pre : List Round) (h : ∀ r ∈ pre, Idle cfg r) (rs : List Round) :
    beginTraining cfg (pre ++ rs) =
      ((beginTraining cfg rs).1, (if cfg.exporter then pre.length else 0) + (beginTraining cfg rs).2) := by
  induction pre with
  | nil => simp
  | cons r pre ih =>
    rw [List.cons_append, begin_idle (h r (by simp)), ih fun x hx => h x (by simp [hx])]
    split
    · simp only [List.length_cons, Prod.mk.injEq, true_and]; omega
    · simp

/-- Either all rounds are idle, or there is a first one that is not. -/
theorem idle_or (cfg : Config) (rs : List Round) :
    (∀ r ∈ rs, Idle cfg r) ∨ ∃ pre r post, rs = pre ++ r :: post ∧ (∀ x ∈ pre, Idle cfg x) ∧ ¬ Idle cfg r := by
  classical
  induction rs with
  | nil => exact Or.inl (by simp)
  | cons r rs ih =>
    by_cases hr : Idle cfg r
    · rcases ih with h | ⟨pre, x, post, rfl, h1, h2⟩
      · exact Or.inl (by simpa [hr] using h)
      · exact Or.inr ⟨r :: pre, x, post, rfl, by simpa [hr] using h1, h2⟩
    · exact Or.inr ⟨[], r, rs, rfl, by simp, hr⟩

/-- **C80** Training is let go exactly when there are enough transitions for a batch, at the first look that finds them,
and if until then neither the signal nor an export ended the wait; until then, pending exports have been processed
once for each look. -/
theorem C80_returns (cfg : Config) (rs : List Round) :
    (beginTraining cfg rs).1 = .returned ↔
      ∃ pre r post, rs = pre ++ r :: post ∧ (∀ x ∈ pre, Idle cfg x) ∧ Enough cfg r := by
  constructor
  · intro h
    rcases idle_or cfg rs with hi | ⟨pre, r, post, rfl, h1, h2⟩
    · have := begin_prefix rs hi []
      rw [List.append_nil] at this
      rw [this] at h
      cases h
    · refine ⟨pre, r, post, rfl, h1, ?_⟩
      rw [begin_prefix pre h1] at h
      simp only [beginTraining] at h
      split at h
      · next hr => exact (ready_iff _ _).1 hr
      · next hr =>
        exfalso
        cases h3 : exportsOf cfg r with
        | error e => simp [h3] at h
        | ok _ =>
          cases h4 : stopOf cfg r with
          | error e => simp [h3, h4] at h
          | ok b =>
            cases b with
            | true => simp [h3, h4] at h
            | false =>
              refine h2 ⟨fun hc => hr ((ready_iff _ _).2 hc), fun hc => ?_, fun hc => ?_⟩
              · simpa [exportsOf, hc] using h3
              · simpa [stopOf, hc] using h4
  · rintro ⟨pre, r, post, rfl, h1, h2⟩
    rw [begin_prefix pre h1, beginTraining, if_pos ((ready_iff _ _).2 h2)]

/-- **C80** The exports that are pending are processed once in each round of waiting. -/
theorem C80_exports (cfg : Config) (pre post : List Round) (r : Round) (h1 : ∀ x ∈ pre, Idle cfg x) (h2 : Enough cfg r) :
    beginTraining cfg (pre ++ r :: post) = (.returned, if cfg.exporter then pre.length else 0) := by
  rw [begin_prefix pre h1, beginTraining, if_pos ((ready_iff _ _).2 h2)]
  simp

/-- **C80** Training is shut down exactly when the signal is on while there is not enough data, and nothing ended the
wait before. -/
theorem C80_shutdown (cfg : Config) (rs : List Round) :
    (beginTraining cfg rs).1 = .shutdown ↔
      ∃ pre r post, rs = pre ++ r :: post ∧ (∀ x ∈ pre, Idle cfg x) ∧ ¬ Enough cfg r ∧
        (cfg.exporter = true → r.exports = .ok ()) ∧ cfg.signal = true ∧ r.stop = .ok true := by
  constructor
  · intro h
    rcases idle_or cfg rs with hi | ⟨pre, r, post, rfl, h1, h2⟩
    · have := begin_prefix rs hi []
      rw [List.append_nil] at this
      rw [this] at h
      cases h
    · rw [begin_prefix pre h1] at h
      simp only [beginTraining] at h
      split at h
      · cases h
      · next hr =>
        have hne : ¬ Enough cfg r := fun hc => hr ((ready_iff _ _).2 hc)
        cases h3 : exportsOf cfg r with
        | error e => simp [h3] at h
        | ok _ =>
          have he : cfg.exporter = true → r.exports = .ok () := fun hc => by simpa [exportsOf, hc] using h3
          cases h4 : stopOf cfg r with
          | error e => simp [h3, h4] at h
          | ok b =>
            cases hs : cfg.signal with
            | false =>
              simp only [stopOf, hs] at h4
              exact absurd ⟨hne, he, fun hc => by rw [hs] at hc; cases hc⟩ h2
            | true =>
              simp only [stopOf, hs, if_true] at h4
              cases b with
              | true => exact ⟨pre, r, post, rfl, h1, hne, he, rfl, h4⟩
              | false => exact absurd ⟨hne, he, fun _ => h4⟩ h2
  · rintro ⟨pre, r, post, rfl, h1, h2, h3, h4, h5⟩
    rw [begin_prefix pre h1, beginTraining, if_neg (by rw [ready_iff]; exact h2)]
    have e1 : exportsOf cfg r = .ok () := by
      unfold exportsOf
      split
      · next hc => exact h3 hc
      · rfl
    simp [e1, stopOf, h4, h5]

/-- **C80** Without enough data it waits for ever, unless something else ends the wait. -/
theorem C80_waits (cfg : Config) (rs : List Round) (h : ∀ r ∈ rs, Idle cfg r) : (beginTraining cfg rs).1 = .waiting := by
  have := begin_prefix rs h []
  rw [List.append_nil] at this
  rw [this]
  rfl

example : beginTraining ⟨⟨"default", 2, 3, "size"⟩, true, true⟩
    [⟨0, .ok (), .ok false⟩, ⟨5, .ok (), .ok false⟩, ⟨9, .ok (), .ok true⟩] = (.returned, 2) := by decide +kernel
example : beginTraining ⟨⟨"default", 2, 3, "size"⟩, false, true⟩
    [⟨0, .ok (), .ok false⟩, ⟨5, .ok (), .ok true⟩, ⟨9, .ok (), .ok true⟩] = (.shutdown, 0) := by decide +kernel
example : beginTraining ⟨⟨"default", 2, 3, "size"⟩, true, false⟩
    [⟨0, .ok (), .ok true⟩, ⟨5, .error .osError, .ok true⟩] = (.raised .osError, 2) := by decide +kernel

/-! ## C108 -/

variable {V : Type u}

theorem run_trans {t0 t t' : Table V} {ops more : List (Op V)} (h1 : Run t0 ops t) (h2 : Run t more t') :
    Run t0 (ops ++ more) t' := by
  induction h2 with
  | nil => simpa using h1
  | add _ hs hid ha ih => rw [← List.append_assoc]; exact Run.add ih hs hid ha
  | resize _ hr ih => rw [← List.append_assoc]; exact Run.resize ih hr
  | sample _ hs hx ih => rw [← List.append_assoc]; exact Run.sample ih hs hx

theorem lenSum_mem_le {q : List (Spec.Entry V)} {L : Nat} (hL : ∀ x ∈ q, x.len ≤ L)
    (id : Int) : lenSum (lensOf q) [id] ≤ L := by
  rw [lenSum_cons, lenSum_nil]
  cases h : (lensOf q).get? id with
  | none => simp
  | some n =>
    have h1 := Dict.mem_of_get? h
    obtain ⟨e, he, h2⟩ := List.mem_map.1 h1
    have h3 : e.len = n := by injection h2
    have := hL e he
    simp only
    omega

/-- An add leaves what was there and more, or it leaves the memory full up to less than an episode. -/
theorem add_size {draws : List Nat} {t t' : Table V} {q : List (Spec.Entry V)} {ids : List Int} {e : Spec.Entry V} {L : Nat}
    (hi : Inv t q) (h : AddOk draws t t' q ids e) (hL : ∀ x ∈ q, x.len ≤ L) :
    t.size ≤ t'.size ∨ t.maxlen + 1 ≤ t'.size + L := by
  have h1 : t'.size = (total (q.filter fun x => x.id ∉ ids) : Int) + e.len := by
    rw [Table.size, h.inv.total]
    simp [Spec.total]
  have h2 : t.size = (total q : Int) := hi.total
  have h3 := h.total
  rcases h.made with ⟨_, rfl, _⟩ | ⟨hover, hej, _, _⟩
  · left
    rw [h1, h2]
    have : q.filter (fun x => x.id ∉ ([] : List Int)) = q := by simp
    rw [this]
    omega
  · right
    rcases List.eq_nil_or_concat ids with rfl | ⟨pre, last, rfl⟩
    · have := hej.enough
      simp only [lenSum_nil] at this h3
      push_cast at this
      omega
    · rw [List.concat_eq_append] at *
      have hmin := hej.minimal pre last rfl
      have hlast := lenSum_mem_le hL last
      rw [lenSum_append] at h3
      rw [h1]
      omega

theorem added_le {lk : String} {ops : List (Op V)} {op : Op V} {L : Nat}
    (h : ∀ e ∈ added (acts lk (ops ++ [op])), e.len ≤ L) : ∀ e ∈ added (acts lk ops), e.len ≤ L := by
  intro e he
  apply h
  cases op with
  | add id seq draws => rw [acts_append, toAct_add, added_add]; exact List.mem_append_left _ he
  | resize n =>
    have ha : acts lk (ops ++ [Op.resize n]) = acts lk ops ++ [.resize n] := acts_append _ _ _
    rw [ha, added_resize]
    exact he
  | sample count n c r junk =>
    have ha : acts lk (ops ++ [Op.sample count n c r junk]) = acts lk ops := by
      rw [acts_append]; exact List.append_nil _
    rw [ha]
    exact he

/-- **C108, partial** Once there is enough for a batch there always will be, whatever is ejected, if the capacity leaves
room for a batch and an episode. -/
theorem C108_partial {columns : List Column} {maxlen : Int} {lk : String} {t0 t t' : Table V} {ops more : List (Op V)}
    (hc : Created columns maxlen lk t0) (h1 : Run t0 ops t) (h2 : Run t more t') (L : Nat)
    (hL : ∀ e ∈ added (acts lk (ops ++ more)), e.len ≤ L) (need : Int) (hroom : need + L ≤ t.maxlen + 1)
    (hready : need ≤ t.size) : need ≤ t'.size ∧ t.maxlen ≤ t'.maxlen := by
  induction h2 with
  | nil => exact ⟨hready, Int.le_refl _⟩
  | @add ops' t1 t2 id seq draws hr hs hid ha ih =>
    rw [← List.append_assoc] at hL
    obtain ⟨ih1, ih2⟩ := ih (added_le hL)
    obtain ⟨q, hq⟩ := run_hist hc (run_trans h1 hr)
    have hid' : Table.wrapId id ∉ q.map Spec.Entry.id := by rw [hq.inv.lengths] at hid; simpa using hid
    obtain ⟨ids, hids⟩ := add_ok hq.inv hs hid' ha
    have hqL : ∀ x ∈ q, x.len ≤ L := fun x hx => added_le hL x (hq.sub.subset hx)
    have hm : t2.maxlen = t1.maxlen := hids.config.maxlen
    refine ⟨?_, by omega⟩
    rcases add_size hq.inv hids hqL with h | h <;> omega
  | resize hr hres ih =>
    rw [← List.append_assoc] at hL
    obtain ⟨ih1, ih2⟩ := ih (added_le hL)
    unfold Table.resize at hres
    split at hres
    · simp at hres
    · injection hres with hres _
      subst hres
      refine ⟨ih1, ?_⟩
      dsimp only
      omega
  | sample hr hsam hx ih =>
    rw [← List.append_assoc] at hL
    obtain ⟨ih1, ih2⟩ := ih (added_le hL)
    obtain ⟨q, hq⟩ := run_hist hc (run_trans h1 hr)
    obtain ⟨h3, h4, _, _⟩ := Table.sample_inv hq.inv hsam hx
    have h5 := h3.total
    have h6 := hq.inv.total
    have h7 := h4.maxlen
    simp only [Table.size] at *
    omega

/-- **C108, partial** So training that was let go does not fail for lack of data: a batch that is asked for later is
sampled. -/
theorem C108_loader_partial {columns : List Column} {maxlen : Int} {lk : String} {t0 t t' : Table V}
    {ops more : List (Op V)} {D : Type v} (hc : Created columns maxlen lk t0) (h1 : Run t0 ops t) (h2 : Run t more t')
    (L : Nat) (hL : ∀ e ∈ added (acts lk (ops ++ more)), e.len ≤ L) (cfg : Config) (rs : List Round) (r : Round)
    (hr : rs.getLast? = some r) (hsize : r.size = t.size) (hw : (beginTraining cfg rs).1 = .returned)
    (hfirst : ∀ x ∈ rs.dropLast, ¬ Enough cfg x)
    (hroom : ((cfg.loader.count * cfg.loader.length : Nat) : Int) + L ≤ t.maxlen + 1) (v : TableView D)
    (hv : v.size = t'.size) {sample : Dict String (BVal D)}
    (hs : v.sample cfg.loader.count cfg.loader.length = .ok sample) :
    ∃ b, cfg.loader.next v .fresh = (.looping, .ok b) := by
  obtain ⟨pre, x, post, rfl, hpre, hx⟩ := (C80_returns cfg rs).1 hw
  have hxr : x = r := by
    rcases List.eq_nil_or_concat post with rfl | ⟨post', y, rfl⟩
    · simpa using hr
    · exfalso
      refine hfirst x ?_ hx
      rw [List.concat_eq_append, ← List.cons_append, ← List.append_assoc, List.dropLast_concat]
      simp
  subst hxr
  unfold Enough at hx
  have h3 := (C108_partial hc h1 h2 L hL _ hroom (by omega)).1
  have h4 : cfg.loader.isReady v = true := by
    simp only [Loader.isReady, ge_iff_le, decide_eq_true_eq]
    omega
  simp only [Loader.next, h4, if_true, Loader.batch, hs]
  exact ⟨_, rfl⟩

/-! ### The claim -/

/-- **C108** A memory that has enough data keeps having enough. -/
def C108_claim : Prop :=
  ∀ (V : Type) (columns : List Column) (maxlen : Int) (lk : String) (t0 t t' : Table V) (ops more : List (Op V)),
    Created columns maxlen lk t0 → Run t0 ops t → Run t more t' → ∀ need : Int, need ≤ t.size → need ≤ t'.size

namespace Ex

open Props.Ex

/-- `t2` of the example holds five of five; the episode of two that comes then takes the place of one of two. Here the
next one takes the place of one of three. -/
def t4 : Table Nat := (Table.addSequence [] 10 (ep [40] [8, 9] 1) Props.Ex.t3).1

theorem run4 : Run Props.Ex.t3 [.add 10 (ep [40] [8, 9] 1) []] t4 :=
  Run.step (ops := []) Run.nil _ _ _ ⟨by decide +kernel, by decide +kernel, by decide +kernel⟩ (by decide +kernel)
    (by decide +kernel)

example : Props.Ex.t3.size = 5 ∧ t4.size = 3 ∧ t4.maxlen = 5 := by decide +kernel

/-- Episodes of at most three and a capacity of five: three transitions stay there. -/
example := C108_partial Props.Ex.created Props.Ex.run run4 3 (by decide +kernel) 3 (by decide +kernel) (by decide +kernel)

example := C108_loader_partial (D := Unit) Props.Ex.created Props.Ex.run run4 3 (by decide +kernel)
  ⟨⟨"default", 1, 3, "size"⟩, true, true⟩ [⟨2, .ok (), .ok false⟩, ⟨5, .ok (), .ok false⟩] ⟨5, .ok (), .ok false⟩ rfl
  (by decide +kernel) (by decide +kernel) (by simp [Enough]) (by decide +kernel) ⟨3, fun _ _ => .ok []⟩ (by decide +kernel)
  (sample := []) rfl

end Ex

/-- **C108 is false**: an episode that does not fit pushes out a longer one. -/
theorem C108_false : ¬ C108_claim := fun h =>
  absurd (h Nat Props.Ex.cols 5 "actions" _ _ _ _ _ Props.Ex.created Props.Ex.run Ex.run4 5 (by decide +kernel))
    (by decide +kernel)

end Warmup

end Verif
