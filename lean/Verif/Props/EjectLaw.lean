import Verif.Props.Replay
import Verif.Props.Strategy
import Verif.Props.Weights
import Mathlib.Probability.ProductMeasure
import Mathlib.Analysis.SpecificLimits.Basic

/-!
# C148: with random ejection, an episode that fits is stored with probability one; C149: what is ejected for it
-/

namespace Verif.Props

namespace EjectLaw

open Verif Verif.Spec MeasureTheory
open scoped ENNReal

variable {V : Type}

/-! ## Specification -/

/-- The stored sequences that have anything in them, in the order in which they are stored -/
def stored (lengths : Dict Int Nat) : List Int := (lengths.filter fun p => 0 < p.2).map Prod.fst

/-- A law of the choice of one of `n` sequences, that of number `d % n`, under which each has a chance. -/
def Likely (n : Nat) (ν : Measure Nat) : Prop := ∀ i, i < n → 0 < ν {d | d % n = i}

/-! ## Proofs -/

/-- What is likely happens at some time. -/
theorem happens {ν : Measure Nat} [IsProbabilityMeasure ν] {S : Set Nat} (hS : 0 < ν S) :
    ∀ᵐ w ∂(Measure.infinitePi fun _ : Nat => ν), ∃ k, w k ∈ S := by
  rw [ae_iff]
  have hlt : ν Sᶜ < 1 := by
    rw [prob_compl_eq_one_sub .of_discrete]
    exact ENNReal.sub_lt_self ENNReal.one_ne_top one_ne_zero hS.ne'
  refine le_antisymm (ge_of_tendsto' (ENNReal.tendsto_pow_atTop_nhds_zero_of_lt_one hlt) fun n => ?_) zero_le
  have := Measure.infinitePi_pi (fun _ : Nat => ν) (s := Finset.range n) (t := fun _ => Sᶜ) fun _ _ => .of_discrete
  rw [Finset.prod_const, Finset.card_range] at this
  rw [← this]
  refine measure_mono fun w hw => ?_
  simp only [Set.mem_ofPred_eq, not_exists] at hw
  exact fun k _ => hw k

theorem choice_eq (l : Dict Int Nat) (d : Nat) {id : Int} (h : (stored l)[d % (stored l).length]? = some id) :
    choice l.keys l.values d = .ok id := by
  unfold choice
  have hlen : ¬ (l.keys.length ≠ l.values.length) := by simp [Dict.keys, Dict.values]
  simp only [zip_keys_values, if_neg hlen]
  change (match (stored l)[d % (stored l).length]? with | none => _ | some id => _) = _
  rw [h]

theorem ejectLoop_more (ids : List Int) (prios : List Nat) (idents : Dict Int Nat) (ds more : List Nat) :
    ∀ (count : Int) acc out, Uniform.ejectLoop ids prios idents ds count acc = .ok out →
      Uniform.ejectLoop ids prios idents (ds ++ more) count acc = .ok out := by
  induction ds with
  | nil =>
    intro count acc out h
    unfold Uniform.ejectLoop at h ⊢
    split at h
    · rename_i hc; rw [if_pos hc]; exact h
    · simp at h
  | cons d ds ih =>
    intro count acc out h
    rw [List.cons_append]
    unfold Uniform.ejectLoop at h ⊢
    split at h
    · rename_i hc; rw [if_pos hc]; exact h
    · rename_i hc
      rw [if_neg hc]
      simp only at h ⊢
      split at h
      · simp at h
      · split at h
        · rename_i hm; rw [if_pos hm]; exact ih _ _ _ h
        · rename_i hm
          rw [if_neg hm]
          split at h
          · simp at h
          · exact ih _ _ _ h

theorem eject_more {s s' : Strategy} {count : Int} {ds : List Nat} {out : List Int} (h : s.eject count ds = (s', .ok out))
    (more : List Nat) : s.eject count (ds ++ more) = (s', .ok out) := by
  cases s with
  | fifo f => exact h
  | uniform u =>
    simp only [Strategy.eject, Uniform.eject] at h ⊢
    cases hr : u.refresh with
    | mk u' r =>
      rw [hr] at h
      cases r with
      | error e => simp [Res.lift, Res.andThen] at h
      | ok x =>
        simp only [Res.lift, Res.andThen, Prod.mk.injEq] at h ⊢
        exact ⟨h.1, ejectLoop_more _ _ _ _ _ _ _ _ h.2⟩
  | coverage u =>
    simp only [Strategy.eject, Coverage.eject] at h ⊢
    cases hr : u.refresh with
    | mk u' r =>
      rw [hr] at h
      cases r with
      | error e => simp [Res.lift, Res.andThen] at h
      | ok x =>
        simp only [Res.lift, Res.andThen, Prod.mk.injEq] at h ⊢
        exact ⟨h.1, ejectLoop_more _ _ _ _ _ _ _ _ h.2⟩

theorem add_more {t t' : Table V} {ds : List Nat} {id : Int} {seq : Seqn V}
    (h : Table.addSequence ds id seq t = (t', .ok ())) (more : List Nat) :
    Table.addSequence (ds ++ more) id seq t = (t', .ok ()) := by
  unfold Table.addSequence at h ⊢
  cases hl : seq.get? t.lengthKey with
  | none => rw [hl] at h; simp at h
  | some rows =>
    rw [hl] at h
    simp only at h ⊢
    by_cases hbig : t.total + rows.length > t.maxlen
    · rw [if_pos hbig] at h ⊢
      rw [ejectCount_eq] at h ⊢
      cases he : t.ejector.eject (t.total + rows.length - t.maxlen) ds with
      | mk s r =>
        rw [he] at h
        cases r with
        | error e => simp [Res.lift, Res.andThen] at h
        | ok out =>
          rw [eject_more he more]
          exact h
    · rw [if_neg hbig] at h ⊢
      exact h

/-- **C148**: A call that adds an episode which fits returns with probability one, after finitely many draws, whatever the
memory went through before: also if sequences to eject are drawn until there is room, and however likely each of them is, if
only it has a chance. -/
theorem C148 {columns : List Column} {maxlen : Int} {lk : String} {t0 t : Table V} {ops : List (Op V)}
    (hc : Created columns maxlen lk t0) (hr : Run t0 ops t) (id : Int) (seq : Seqn V) (hs : SeqOk t seq)
    (hid : Table.wrapId id ∉ t.lengths.keys) {rows : List V} (hrows : seq.get? lk = some rows)
    (hlen : (rows.length : Int) ≤ t.maxlen) (hfit : ∀ x ∈ t.lengths.keys, -2^63 ≤ x ∧ x < 2^63)
    {ν : Measure Nat} [IsProbabilityMeasure ν] (hν : Likely (stored t.lengths).length ν) :
    ∀ᵐ w ∂(Measure.infinitePi fun _ : Nat => ν),
      ∃ n t', ∀ m, n ≤ m → Table.addSequence ((List.range m).map w) id seq t = (t', .ok ()) := by
  obtain ⟨q, h⟩ := run_hist hc hr
  have hall : ∀ᵐ w ∂(Measure.infinitePi fun _ : Nat => ν), ∀ i : Fin (stored t.lengths).length,
      ∃ k, w k ∈ {d | d % (stored t.lengths).length = i} := by
    rw [ae_all_iff]
    exact fun i => happens (hν i i.2)
  filter_upwards [hall] with w hw
  choose k hk using hw
  have hfin : ∃ n, ∀ i, k i < n := by
    obtain ⟨n, hn⟩ := (Set.finite_range k).bddAbove
    exact ⟨n + 1, fun i => Nat.lt_succ_of_le (hn ⟨i, rfl⟩)⟩
  obtain ⟨n, hn⟩ := hfin
  obtain ⟨t', ht'⟩ : ∃ t', Table.addSequence ((List.range n).map w) id seq t = (t', .ok ()) := by
    apply add_succeeds h.inv hs (by have := hid; rw [h.inv.lengths] at this; simpa using this) (rows := rows) (by rw [h.key]; exact hrows)
    intro hbig
    have hnd : (lensOf q).keys.Nodup := by simpa using h.inv.nodup
    have htot : trackedTotal (lensOf q) = total q := by
      simp [trackedTotal, total, lensOf, Function.comp_def]
    have hle : t.total + rows.length - t.maxlen ≤ trackedTotal (lensOf q) := by
      have := h.inv.total
      omega
    have covered : ∀ p ∈ lensOf q, 0 < p.2 →
        ∃ d ∈ (List.range n).map w, choice (lensOf q).keys (lensOf q).values d = .ok p.1 := by
      rw [← h.inv.lengths]
      intro p hp hpos
      have hmem : p.1 ∈ stored t.lengths := List.mem_map.2 ⟨p, List.mem_filter.2 ⟨hp, by simpa using hpos⟩, rfl⟩
      obtain ⟨i, hi, hpi⟩ := List.mem_iff_getElem.1 hmem
      refine ⟨w (k ⟨i, hi⟩), List.mem_map.2 ⟨_, List.mem_range.2 (hn _), rfl⟩, choice_eq _ _ ?_⟩
      have := hk ⟨i, hi⟩
      rw [show w (k ⟨i, hi⟩) % (stored t.lengths).length = i from this, List.getElem?_eq_getElem hi, hpi]
    cases hE : t.ejector with
    | fifo f =>
      have ht := h.inv.ejector
      rw [hE] at ht
      obtain ⟨t1, t2, _⟩ := ht
      simp only [Strategy.eject, Fifo.eject, t1, t2]
      rcases Fifo.ejectLoop_complete (l := lensOf q) (t.total + rows.length - t.maxlen) _ (fun _ h => h) with
        ⟨_, out, h3⟩ | ⟨h3, _⟩
      · exact ⟨_, out, by rw [h3]⟩
      · rw [lenSum_keys hnd] at h3; omega
    | uniform u =>
      rw [← hE]
      refine eject_covered h.inv.ejector hnd (by rw [hE]; simp) hle (by omega) (by rw [← h.inv.lengths]; exact hfit) ?_
      exact covered
    | coverage u =>
      rw [← hE]
      refine eject_covered h.inv.ejector hnd (by rw [hE]; simp) hle (by omega) (by rw [← h.inv.lengths]; exact hfit) ?_
      exact covered
  refine ⟨n, t', fun m hm => ?_⟩
  obtain ⟨j, rfl⟩ := Nat.exists_eq_add_of_le hm
  have := add_more ht' (((List.range j).map (n + ·)).map w)
  rwa [← List.map_append, ← List.range_add] at this

/-- The sequences are drawn with probabilities that are proportional to their lengths: then each has a chance. -/
theorem likely_of_lengths {lengths : Dict Int Nat} (hn : lengths.keys.Nodup) {ν : Measure Nat} {T : ℝ} (hT : 0 < T)
    (h : ∀ (i : Nat) id len, (stored lengths)[i]? = some id → lengths.get? id = some len →
      ν {d | d % (stored lengths).length = i} = ENNReal.ofReal (len / T)) : Likely (stored lengths).length ν := by
  intro i hi
  have hmem := List.getElem_mem hi
  obtain ⟨⟨id, len⟩, hp, he⟩ := List.mem_map.1 hmem
  obtain ⟨hp1, hp2⟩ := List.mem_filter.1 hp
  have hpos : (0 : ℝ) < len := by simpa using hp2
  rw [h i id len (by rw [List.getElem?_eq_getElem hi, ← he]) (Dict.get?_of_mem hn hp1), ENNReal.ofReal_pos]
  positivity

/-! ## C149: which sequences are ejected -/

/-- The draws that stand for a sequence -/
def drawn (lengths : Dict Int Nat) (id : Int) : Set Nat :=
  {d | (stored lengths)[d % (stored lengths).length]? = some id}

/-- One draw: the stored sequences have probabilities proportional to their weights. -/
def Weighted (lengths : Dict Int Nat) (W : Int → ℝ) (ν : Measure Nat) : Prop :=
  ∀ id ∈ stored lengths, 0 < W id ∧ ν (drawn lengths id) = ENNReal.ofReal (W id / ((stored lengths).map W).sum)

/-- The probability that these sequences are picked in this order, one by one, each from what is left with probability
proportional to its weight, `total` being the weight of all that is left -/
noncomputable def oneByOne (W : Int → ℝ) : ℝ → List Int → ℝ
  | _, [] => 1
  | total, id :: ids => W id / total * oneByOne W (total - W id) ids

/-- What follows the first draw -/
def tail (w : Nat → Nat) : Nat → Nat := fun n => w (n + 1)

theorem measurable_tail : Measurable tail := measurable_pi_lambda _ fun n => measurable_pi_apply (n + 1)

/-- A first draw and then the others is what the draws are. -/
theorem map_cons (ν : Measure Nat) [IsProbabilityMeasure ν] :
    (Measure.infinitePi fun _ : Nat => ν).map (fun w => (w 0, tail w)) = ν.prod (Measure.infinitePi fun _ : Nat => ν) := by
  let cons : Nat × (Nat → Nat) → Nat → Nat := fun p n => match n with | 0 => p.1 | n + 1 => p.2 n
  have hm : Measurable cons := measurable_pi_lambda _ fun n => match n with
    | 0 => measurable_fst
    | n + 1 => (measurable_pi_apply n).comp measurable_snd
  have h : (ν.prod (Measure.infinitePi fun _ : Nat => ν)).map cons = Measure.infinitePi fun _ : Nat => ν := by
    refine Measure.eq_infinitePi _ fun s t ht => ?_
    rw [Measure.map_apply hm (.pi s.countable_toSet fun i _ => ht i)]
    have hset : cons ⁻¹' (Set.pi s t) = (if 0 ∈ s then t 0 else Set.univ) ×ˢ
        Set.pi (s.preimage (· + 1) (fun _ _ _ _ h => by simpa using h)) (fun n => t (n + 1)) := by
      ext ⟨x, w⟩
      simp only [Set.mem_preimage, Set.mem_pi, Finset.mem_coe, Set.mem_prod]
      constructor
      · intro h
        refine ⟨?_, fun i hi => h (i + 1) (Finset.mem_preimage (f := (· + 1)).1 hi)⟩
        split
        · rename_i h0; exact h 0 h0
        · trivial
      · rintro ⟨h0, h1⟩ i hi
        cases i with
        | zero => rw [if_pos hi] at h0; exact h0
        | succ i => exact h1 i (Finset.mem_preimage.2 hi)
    rw [hset, Measure.prod_prod, Measure.infinitePi_pi _ fun i _ => ht (i + 1)]
    have hps : ∏ i ∈ s.preimage (· + 1) (fun _ _ _ _ h => by simpa using h), ν (t (i + 1)) = ∏ i ∈ s.erase 0, ν (t i) := by
      refine Finset.prod_bij (fun i _ => i + 1) ?_ ?_ ?_ ?_
      · intro i hi; simpa using Finset.mem_preimage.1 hi
      · intro i _ j _ h; simpa using h
      · intro i hi
        rw [Finset.mem_erase] at hi
        obtain ⟨j, rfl⟩ := Nat.exists_eq_succ_of_ne_zero hi.1
        exact ⟨j, Finset.mem_preimage.2 hi.2, rfl⟩
      · intro i _; rfl
    rw [hps]
    split
    · rename_i h0; rw [Finset.mul_prod_erase s (fun i => ν (t i)) h0]
    · rename_i h0; rw [measure_univ, one_mul, Finset.erase_eq_of_notMem h0]
  conv_lhs => rw [← h]
  rw [Measure.map_map ((measurable_pi_apply 0).prodMk measurable_tail) hm]
  exact Measure.map_id

theorem first (ν : Measure Nat) [IsProbabilityMeasure ν] (A : Set Nat) {E : Set (Nat → Nat)} (hE : MeasurableSet E) :
    (Measure.infinitePi fun _ : Nat => ν) {w | w 0 ∈ A ∧ tail w ∈ E} = ν A * (Measure.infinitePi fun _ : Nat => ν) E := by
  have h := congrArg (fun m => m (A ×ˢ E)) (map_cons ν)
  simp only [Measure.prod_prod] at h
  rw [← h, Measure.map_apply ((measurable_pi_apply 0).prodMk measurable_tail) (MeasurableSet.of_discrete.prod hE)]
  rfl

/-- The draws with which the loop gives that answer -/
def gives (l : Dict Int Nat) (count : Int) (acc out : List Int) : Set (Nat → Nat) :=
  {w | ∃ n, Uniform.ejectLoop l.keys l.values l ((List.range n).map w) count acc = .ok out}

theorem measurable_prefix (n : Nat) (P : List Nat → Prop) : MeasurableSet {w : Nat → Nat | P ((List.range n).map w)} := by
  have h : Measurable fun (w : Nat → Nat) (i : Fin n) => w i := measurable_pi_lambda _ fun i => measurable_pi_apply _
  have h2 : MeasurableSet {v : Fin n → Nat | P (List.ofFn v)} := .of_discrete
  convert h h2 using 1
  ext w
  simp only [Set.mem_ofPred_eq, Set.preimage_ofPred_eq]
  rw [show (List.ofFn fun i : Fin n => w i) = (List.range n).map w by
    apply List.ext_getElem <;> simp]

theorem measurable_gives (l : Dict Int Nat) (count : Int) (acc out : List Int) : MeasurableSet (gives l count acc out) := by
  have : gives l count acc out =
      ⋃ n, {w | Uniform.ejectLoop l.keys l.values l ((List.range n).map w) count acc = .ok out} := by
    ext w; simp [gives]
  rw [this]
  exact .iUnion fun n => measurable_prefix n fun ds => Uniform.ejectLoop l.keys l.values l ds count acc = .ok out

theorem ejectLoop_prefix (ids : List Int) (prios : List Nat) (idents : Dict Int Nat) (ds : List Nat) :
    ∀ (count : Int) acc out, Uniform.ejectLoop ids prios idents ds count acc = .ok out → acc <+: out := by
  induction ds with
  | nil =>
    intro count acc out h
    unfold Uniform.ejectLoop at h
    split at h
    · injection h with h; subst h; exact List.prefix_rfl
    · simp at h
  | cons d ds ih =>
    intro count acc out h
    unfold Uniform.ejectLoop at h
    split at h
    · injection h with h; subst h; exact List.prefix_rfl
    · simp only at h
      split at h
      · simp at h
      · split at h
        · exact ih _ _ _ h
        · split at h
          · simp at h
          · exact (List.prefix_append _ _).trans (ih _ _ _ h)

theorem choice_drawn (l : Dict Int Nat) {d : Nat} {id : Int} : choice l.keys l.values d = .ok id ↔ d ∈ drawn l id := by
  refine ⟨fun h => ?_, choice_eq l d⟩
  unfold choice at h
  have hlen : ¬ (l.keys.length ≠ l.values.length) := by simp [Dict.keys, Dict.values]
  simp only [zip_keys_values, if_neg hlen] at h
  change (match (stored l)[d % (stored l).length]? with | none => _ | some id => _) = _ at h
  change (stored l)[d % (stored l).length]? = some id
  cases hg : (stored l)[d % (stored l).length]? with
  | none => rw [hg] at h; simp at h
  | some x => rw [hg] at h; simp at h; rw [h]

theorem stored_get {l : Dict Int Nat} (hn : l.keys.Nodup) {id : Int} (h : id ∈ stored l) : ∃ n, l.get? id = some n ∧ 0 < n := by
  obtain ⟨⟨i, n⟩, hp, rfl⟩ := List.mem_map.1 h
  obtain ⟨h1, h2⟩ := List.mem_filter.1 hp
  exact ⟨n, Dict.get?_of_mem hn h1, by simpa using h2⟩

/-- One turn of the loop -/
theorem gives_step {l : Dict Int Nat} {count : Int} (hc : 0 < count) {acc rest : List Int} {a : Int} {len : Nat}
    (ha : a ∉ acc) (hlen : l.get? a = some len) :
    gives l count acc (acc ++ a :: rest) =
      {w | w 0 ∈ {d | ∃ id ∈ acc, d ∈ drawn l id} ∧ tail w ∈ gives l count acc (acc ++ a :: rest)} ∪
      {w | w 0 ∈ drawn l a ∧ tail w ∈ gives l (count - len) (acc ++ [a]) (acc ++ a :: rest)} := by
  have hcons : ∀ (n : Nat) (w : Nat → Nat), (List.range (n + 1)).map w = w 0 :: (List.range n).map (tail w) := by
    intro n w
    rw [List.range_succ_eq_map, List.map_cons, List.map_map]
    rfl
  ext w
  simp only [gives, Set.mem_union, Set.mem_ofPred_eq]
  constructor
  · rintro ⟨n, hn'⟩
    cases n with
    | zero =>
      unfold Uniform.ejectLoop at hn'
      rw [if_neg (by omega)] at hn'
      simp at hn'
    | succ n =>
      rw [hcons] at hn'
      unfold Uniform.ejectLoop at hn'
      rw [if_neg (by omega)] at hn'
      simp only at hn'
      split at hn'
      · simp at hn'
      · rename_i id hid
        split at hn'
        · rename_i hm
          exact .inl ⟨⟨id, hm, (choice_drawn l).1 hid⟩, n, hn'⟩
        · split at hn'
          · simp at hn'
          · rename_i len' hl'
            have hp := ejectLoop_prefix _ _ _ _ _ _ _ hn'
            rw [List.prefix_append_right_inj] at hp
            have : id = a := by simpa using hp
            subst this
            rw [hlen] at hl'
            injection hl' with hl'
            subst hl'
            exact .inr ⟨(choice_drawn l).1 hid, n, hn'⟩
  · rintro (⟨⟨id, hm, hid⟩, n, hn'⟩ | ⟨hid, n, hn'⟩)
    · refine ⟨n + 1, ?_⟩
      rw [hcons]
      unfold Uniform.ejectLoop
      rw [if_neg (by omega)]
      simp only [(choice_drawn l).2 hid, if_pos hm]
      exact hn'
    · refine ⟨n + 1, ?_⟩
      rw [hcons]
      unfold Uniform.ejectLoop
      rw [if_neg (by omega)]
      simp only [(choice_drawn l).2 hid, if_neg ha, hlen]
      exact hn'

theorem stored_nodup {l : Dict Int Nat} (hn : l.keys.Nodup) : (stored l).Nodup :=
  hn.sublist (List.filter_sublist.map _)

theorem measure_acc {l : Dict Int Nat} {W : Int → ℝ} {ν : Measure Nat} (hν : Weighted l W ν) {acc : List Int} (hnd : acc.Nodup)
    (hsub : ∀ id ∈ acc, id ∈ stored l) (hT : 0 ≤ ((stored l).map W).sum) :
    ν {d | ∃ id ∈ acc, d ∈ drawn l id} = ENNReal.ofReal ((acc.map W).sum / ((stored l).map W).sum) := by
  induction acc with
  | nil => simp
  | cons a acc ih =>
    have hset : {d | ∃ id ∈ a :: acc, d ∈ drawn l id} = drawn l a ∪ {d | ∃ id ∈ acc, d ∈ drawn l id} := by
      ext d; simp
    have hdis : Disjoint (drawn l a) {d | ∃ id ∈ acc, d ∈ drawn l id} := by
      rw [Set.disjoint_left]
      rintro d hd ⟨id, hid, hd'⟩
      have : a = id := by
        simp only [drawn, Set.mem_ofPred_eq] at hd hd'
        rw [hd] at hd'
        exact Option.some.inj hd'
      subst this
      exact (List.nodup_cons.1 hnd).1 hid
    have hpos : 0 ≤ (acc.map W).sum := List.sum_nonneg (by
      intro x hx
      obtain ⟨i, hi, rfl⟩ := List.mem_map.1 hx
      exact (hν i (hsub i (by simp [hi]))).1.le)
    have h1 := hν a (hsub a (by simp))
    rw [hset, measure_union hdis .of_discrete, h1.2, ih (List.nodup_cons.1 hnd).2 (fun i hi => hsub i (by simp [hi])),
      ← ENNReal.ofReal_add (div_nonneg h1.1.le hT) (div_nonneg hpos hT), List.map_cons, List.sum_cons, add_div]

theorem sum_sub_le {l : List Int} {W : Int → ℝ} (hW : ∀ id ∈ l, 0 ≤ W id) {acc : List Int} (hnd : acc.Nodup)
    (hsub : ∀ id ∈ acc, id ∈ l) : (acc.map W).sum ≤ (l.map W).sum := by
  obtain ⟨l', hp, hs⟩ := List.subperm_of_subset hnd hsub
  rw [← (hp.map W).sum_eq]
  exact (hs.map W).sum_le_sum (by
    intro x hx
    obtain ⟨i, hi, rfl⟩ := List.mem_map.1 hx
    exact hW i hi)

theorem gives_law {l : Dict Int Nat} (hn : l.keys.Nodup) {W : Int → ℝ} {ν : Measure Nat} [IsProbabilityMeasure ν] (hν : Weighted l W ν)
    (rest : List Int) : ∀ (acc : List Int) (count : Int), (acc ++ rest).Nodup → (∀ id ∈ acc ++ rest, id ∈ stored l) →
      count ≤ lenSum l rest → (∀ pre last, rest = pre ++ [last] → (lenSum l pre : Int) < count) →
      (Measure.infinitePi fun _ : Nat => ν) (gives l count acc (acc ++ rest)) =
          ENNReal.ofReal (oneByOne W (((stored l).map W).sum - (acc.map W).sum) rest) ∧
        0 ≤ oneByOne W (((stored l).map W).sum - (acc.map W).sum) rest := by
  induction rest with
  | nil =>
    intro acc count _ _ hc _
    have : gives l count acc (acc ++ []) = Set.univ := by
      ext w
      simp only [gives, Set.mem_ofPred_eq, Set.mem_univ, iff_true, List.append_nil]
      refine ⟨0, ?_⟩
      unfold Uniform.ejectLoop
      rw [if_pos (by simpa using hc)]
    rw [this]
    simp [oneByOne]
  | cons a rest ih =>
    intro acc count hnd hsub hc hmin
    have hpos : 0 < count := by
      rcases List.eq_nil_or_concat (a :: rest) with h | ⟨pre, last, h⟩
      · simp at h
      · have := hmin pre last (by simpa using h)
        omega
    have ha : a ∉ acc := by
      intro h
      exact (List.nodup_append.1 hnd).2.2 a h a (by simp) rfl
    obtain ⟨len, hlen, hlpos⟩ := stored_get hn (hsub a (by simp))
    have hnd' : (acc ++ [a] ++ rest).Nodup := by simpa using hnd
    have hWn : ∀ id ∈ stored l, 0 ≤ W id := fun id hid => (hν id hid).1.le
    have hWa := hν a (hsub a (by simp))
    obtain ⟨hy, hy0⟩ := ih (acc ++ [a]) (count - len) hnd' (by simpa using hsub)
      (by simp only [lenSum_cons, hlen] at hc; push_cast at hc; omega)
      (by
        intro pre last h
        have := hmin (a :: pre) last (by simp [h])
        simp only [lenSum_cons, hlen] at this
        push_cast at this
        omega)
    have hle : (acc.map W).sum + W a ≤ ((stored l).map W).sum := by
      have := sum_sub_le hWn (acc := acc ++ [a]) (List.nodup_append.1 hnd').1 (fun id hid => hsub id (by
        simp only [List.mem_append, List.mem_cons] at hid ⊢; tauto))
      simpa using this
    have hS : 0 ≤ (acc.map W).sum := List.sum_nonneg (by
      intro x hx
      obtain ⟨i, hi, rfl⟩ := List.mem_map.1 hx
      exact hWn i (hsub i (by simp [hi])))
    have hTpos : 0 < ((stored l).map W).sum := by linarith [hWa.1]
    have hA := measure_acc hν (acc := acc) (List.nodup_append.1 hnd).1 (fun id hid => hsub id (by simp [hid])) hTpos.le
    have hx := congrArg (Measure.infinitePi fun _ : Nat => ν) (gives_step hpos (rest := rest) ha hlen)
    have hmeas : MeasurableSet {w : Nat → Nat | w 0 ∈ drawn l a ∧ tail w ∈ gives l (count - len) (acc ++ [a]) (acc ++ a :: rest)} :=
      ((measurable_pi_apply (X := fun _ : Nat => Nat) 0) (MeasurableSet.of_discrete (s := drawn l a))).inter
        (measurable_tail (measurable_gives _ _ _ _))
    rw [measure_union ?_ hmeas, first _ _ (measurable_gives _ _ _ _), first _ _ (measurable_gives _ _ _ _), hA, hWa.2] at hx
    · have e1 : acc ++ a :: rest = acc ++ [a] ++ rest := by simp
      have e2 : ((stored l).map W).sum - ((acc ++ [a]).map W).sum = ((stored l).map W).sum - (acc.map W).sum - W a := by
        simp; ring
      rw [show gives l (count - len) (acc ++ [a]) (acc ++ a :: rest) = gives l (count - len) (acc ++ [a]) (acc ++ [a] ++ rest) by rw [e1],
        hy] at hx
      rw [e2] at hy0 hx
      have hfin : (Measure.infinitePi fun _ : Nat => ν) (gives l count acc (acc ++ a :: rest)) ≠ ⊤ := measure_ne_top _ _
      have hr := congrArg ENNReal.toReal hx
      rw [ENNReal.toReal_add (ENNReal.mul_ne_top ENNReal.ofReal_ne_top hfin)
        (ENNReal.mul_ne_top ENNReal.ofReal_ne_top ENNReal.ofReal_ne_top), ENNReal.toReal_mul, ENNReal.toReal_mul,
        ENNReal.toReal_ofReal (by positivity), ENNReal.toReal_ofReal (div_nonneg hWa.1.le hTpos.le), ENNReal.toReal_ofReal hy0] at hr
      have hval : ((Measure.infinitePi fun _ : Nat => ν) (gives l count acc (acc ++ a :: rest))).toReal =
          oneByOne W (((stored l).map W).sum - (acc.map W).sum) (a :: rest) := by
        have hne : ((stored l).map W).sum - (acc.map W).sum ≠ 0 := by linarith [hWa.1]
        rw [oneByOne]
        field_simp at hr ⊢
        linarith
      refine ⟨by rw [← hval, ENNReal.ofReal_toReal hfin], by rw [← hval]; exact ENNReal.toReal_nonneg⟩
    · rw [Set.disjoint_left]
      rintro w ⟨⟨id, hid, h1⟩, _⟩ ⟨h2, _⟩
      simp only [drawn, Set.mem_ofPred_eq] at h1 h2
      rw [h1] at h2
      exact ha (Option.some.inj h2 ▸ hid)

/-- What the loop is given and answers with, for both strategies that draw -/
theorem eject_loop {s : Strategy} {l : Dict Int Nat} (ht : s.Tracks l) (hk : ∀ f, s ≠ .fifo f)
    (hfit : ∀ id ∈ l.keys, -2^63 ≤ id ∧ id < 2^63) (count : Int) (draws : List Nat) :
    (s.eject count draws).2 = Uniform.ejectLoop l.keys l.values l draws count [] := by
  have hfit' : ∀ id ∈ l.keys, fitsInt64 id = true := by
    intro id hid; simpa [fitsInt64] using hfit id hid
  cases s with
  | fifo f => exact absurd rfl (hk f)
  | uniform s =>
    obtain ⟨s1, hr⟩ := Strategy.refresh_uniform_ok ht hfit'
    obtain ⟨_, h2, h3, h4⟩ := Strategy.refresh_uniform ht hr
    simp only [Strategy.eject, Uniform.eject, hr, Res.andThen_ok, h2, h3, h4, Res.lift]
  | coverage s =>
    obtain ⟨s1, hr⟩ := Strategy.refresh_coverage_ok ht hfit'
    obtain ⟨_, h2, h3, h4, _⟩ := Strategy.refresh_coverage ht hr
    simp only [Strategy.eject, Coverage.eject, hr, Res.andThen_ok, h2, h3, h4, Res.lift]

theorem ejectLoop_stored (l : Dict Int Nat) (ds : List Nat) :
    ∀ (count : Int) acc out, (∀ id ∈ acc, id ∈ stored l) → Uniform.ejectLoop l.keys l.values l ds count acc = .ok out →
      ∀ id ∈ out, id ∈ stored l := by
  induction ds with
  | nil =>
    intro count acc out ha h
    unfold Uniform.ejectLoop at h
    split at h
    · injection h with h; subst h; exact ha
    · simp at h
  | cons d ds ih =>
    intro count acc out ha h
    unfold Uniform.ejectLoop at h
    split at h
    · injection h with h; subst h; exact ha
    · simp only at h
      split at h
      · simp at h
      · rename_i id hid
        split at h
        · exact ih _ _ _ ha h
        · split at h
          · simp at h
          · refine ih _ _ _ ?_ h
            intro x hx
            rcases List.mem_append.1 hx with hx | hx
            · exact ha x hx
            · rw [List.mem_singleton] at hx
              subst hx
              exact List.mem_of_getElem? ((choice_drawn l).1 hid)

/-- **C149**: The probability with which random ejection picks given sequences in a given order: it is that of picking them one by
one, without putting any back, each with a probability proportional to its weight among what is left. -/
theorem C149 {s : Strategy} {l : Dict Int Nat} (h : Tracked s l) (hk : ∀ f, s ≠ .fifo f)
    (hfit : ∀ id ∈ l.keys, -2^63 ≤ id ∧ id < 2^63) {W : Int → ℝ} {ν : Measure Nat} [IsProbabilityMeasure ν]
    (hν : Weighted l W ν) {count : Int} {ids : List Int} (hf : Frees l count ids) (hs : ∀ id ∈ ids, id ∈ stored l) :
    (Measure.infinitePi fun _ : Nat => ν) {w | ∃ n s', s.eject count ((List.range n).map w) = (s', .ok ids)} =
      ENNReal.ofReal (oneByOne W ((stored l).map W).sum ids) := by
  have hnd := h.tracks.2
  have hset : {w : Nat → Nat | ∃ n s', s.eject count ((List.range n).map w) = (s', .ok ids)} = gives l count [] ids := by
    ext w
    simp only [gives, Set.mem_ofPred_eq]
    constructor
    · rintro ⟨n, s', he⟩
      exact ⟨n, by rw [← eject_loop h.tracks.1 hk hfit, he]⟩
    · rintro ⟨n, he⟩
      exact ⟨n, (s.eject count ((List.range n).map w)).1, by rw [← he, ← eject_loop h.tracks.1 hk hfit]⟩
  rw [hset]
  have hlen : ∀ pre : List Int, pre.Nodup → pickedTotal l pre = lenSum l pre := fun pre hp => pickedTotal_eq hnd hp
  have := (gives_law hnd hν ids [] count (by simpa using hf.distinct) (by simpa using hs)
    (by rw [← hlen _ hf.distinct]; exact hf.enough)
    (by
      intro pre last he
      rw [← hlen pre (List.nodup_append.1 (he ▸ hf.distinct)).1]
      exact hf.needed pre last he)).1
  simpa using this

/-- **C149**: Nothing else is ever picked. -/
theorem C149_only {s s' : Strategy} {l : Dict Int Nat} (h : Tracked s l) (hk : ∀ f, s ≠ .fifo f)
    (hfit : ∀ id ∈ l.keys, -2^63 ≤ id ∧ id < 2^63) {count : Int} {draws : List Nat} {ids : List Int}
    (he : s.eject count draws = (s', .ok ids)) : Frees l count ids ∧ ∀ id ∈ ids, id ∈ stored l :=
  ⟨C19_eject_frees h he, ejectLoop_stored l draws count [] ids (by simp) (by rw [← eject_loop h.tracks.1 hk hfit, he])⟩

/-- How many transitions a sequence has -/
def amount (lengths : Dict Int Nat) (id : Int) : ℝ := match lengths.get? id with | some n => n | none => 0

theorem sum_amount {l : Dict Int Nat} (hn : l.keys.Nodup) : ((stored l).map (amount l)).sum = (trackedTotal l : ℝ) := by
  have : ∀ l' : Dict Int Nat, (∀ p ∈ l', l.get? p.1 = some p.2) →
      (((l'.filter fun p => 0 < p.2).map Prod.fst).map (amount l)).sum = ((l'.map Prod.snd).sum : ℕ) := by
    intro l'
    induction l' with
    | nil => simp
    | cons p l' ih =>
      intro h
      have ih := ih (fun q hq => h q (by simp [hq]))
      have hp : amount l p.1 = p.2 := by simp [amount, h p (by simp)]
      by_cases hpos : 0 < p.2
      · rw [List.filter_cons_of_pos (by simpa using hpos)]
        simp only [List.map_cons, List.sum_cons, ih, hp]
        push_cast
        ring
      · rw [List.filter_cons_of_neg (by simpa using hpos)]
        simp only [List.map_cons, List.sum_cons, ih]
        push_cast
        have : p.2 = 0 := by omega
        simp [this]
  exact this l fun p hp => Dict.get?_of_mem hn hp

/-- **C149**: Uniform ejection picks in proportion to how many transitions a sequence has. `u'.weights` is what the code hands to
the generator. -/
theorem C149_uniform {u u' : Uniform} {l : Dict Int Nat} (h : Tracked (.uniform u) l) (hr : u.refresh = (u', .ok ()))
    (hfit : ∀ id ∈ l.keys, -2^63 ≤ id ∧ id < 2^63) {ν : Measure Nat} [IsProbabilityMeasure ν]
    (hν : ∀ id ∈ stored l, ν (drawn l id) = ENNReal.ofReal (choiceProb u'.ids u'.weights id)) {count : Int} {ids : List Int}
    (hf : Frees l count ids) (hs : ∀ id ∈ ids, id ∈ stored l) :
    (Measure.infinitePi fun _ : Nat => ν) {w | ∃ n s', Strategy.eject (.uniform u) count ((List.range n).map w) = (s', .ok ids)} =
      ENNReal.ofReal (oneByOne (amount l) (trackedTotal l) ids) := by
  have hnd := h.tracks.2
  rw [← sum_amount hnd]
  refine C149 h (by simp) hfit (fun id hid => ?_) hf hs
  obtain ⟨n, hn, hpos⟩ := stored_get hnd hid
  have ha : amount l id = n := by simp [amount, hn]
  have htot : 0 < trackedTotal l := by
    have h1 := sum_sub_le (l := stored l) (W := amount l) (acc := [id])
      (fun x hx => by obtain ⟨m, hm, _⟩ := stored_get hnd hx; simp [amount, hm]) (by simp) (by simpa using hid)
    rw [sum_amount hnd] at h1
    simp only [List.map_cons, List.map_nil, List.sum_cons, List.sum_nil, add_zero, ha] at h1
    have : n ≤ trackedTotal l := by exact_mod_cast h1
    omega
  refine ⟨by rw [ha]; exact_mod_cast hpos, ?_⟩
  rw [hν id hid, (C17_weights h hr htot).2.2.2.1 id n hn, sum_amount hnd, ha]

namespace Ex

open Verif.Props.Ex

/-- A memory for five transitions that ejects at random -/
def r0 : Table Nat := (Table.new cols 5 (.uniform {}) (.uniform {}) "actions").1
def r1 : Table Nat := (Table.addSequence [] 7 (ep [10, 11] [1, 2, 3] 0) r0).1
def r2 : Table Nat := (Table.addSequence [] 8 (ep [20, 21, 22] [4, 5, 6, 7] 1) r1).1

theorem created : Created cols 5 "actions" r0 :=
  ⟨by decide, _, _, .uniform, .uniform, Prod.ext rfl (by decide +kernel)⟩

theorem run : Run r0 [.add 7 (ep [10, 11] [1, 2, 3] 0) [], .add 8 (ep [20, 21, 22] [4, 5, 6, 7] 1) []] r2 :=
  Run.step (ops := [_]) (Run.step (ops := []) Run.nil _ _ _
    ⟨by decide +kernel, by decide +kernel, by decide +kernel⟩ (by decide +kernel) (by decide +kernel))
    _ _ _ ⟨by decide +kernel, by decide +kernel, by decide +kernel⟩ (by decide +kernel) (by decide +kernel)

/-- Three more transitions: one of the two episodes has to go, or both, as they are drawn. -/
example : [[1, 0], [0, 0, 0, 1], [0, 2]].map (fun ds => ((Table.addSequence ds 9 (ep [1, 2, 3] [0, 0, 0, 0] 0) r2).2.toOption,
      (Table.addSequence ds 9 (ep [1, 2, 3] [0, 0, 0, 0] 0) r2).1.lengths)) =
    [(some (), [(7, 2), (9, 3)]), (some (), [(9, 3)]), (none, [(7, 2), (8, 3)])] := by decide +kernel

/-- Both are equally likely here. -/
noncomputable def coin : Measure Nat := (1 / 2 : ℝ≥0∞) • Measure.dirac 0 + (1 / 2 : ℝ≥0∞) • Measure.dirac 1

instance : IsProbabilityMeasure coin := ⟨by simp [coin, ENNReal.inv_two_add_inv_two]⟩

theorem coin_likely : Likely (stored r2.lengths).length coin := by
  rw [show (stored r2.lengths).length = 2 by decide +kernel]
  intro i hi
  interval_cases i <;> simp [coin]

example : ∀ᵐ w ∂(Measure.infinitePi fun _ : Nat => coin), ∃ n t', ∀ m, n ≤ m →
    Table.addSequence ((List.range m).map w) 9 (ep [1, 2, 3] [0, 0, 0, 0] 0) r2 = (t', .ok ()) :=
  C148 created run 9 _ ⟨by decide +kernel, by decide +kernel, by decide +kernel⟩ (by decide +kernel) (rows := [1, 2, 3])
    (by decide +kernel) (by decide +kernel) (by decide +kernel) coin_likely

/-- Sequences of two, four and three transitions, drawn in proportion to that -/
noncomputable def three : Measure Nat :=
  ENNReal.ofReal (2 / 9) • Measure.dirac 0 + ENNReal.ofReal (4 / 9) • Measure.dirac 1 + ENNReal.ofReal (3 / 9) • Measure.dirac 2

instance : IsProbabilityMeasure three := ⟨by
  simp only [three, Measure.coe_add, Measure.coe_smul, Pi.add_apply, Pi.smul_apply, measure_univ, smul_eq_mul, mul_one]
  rw [← ENNReal.ofReal_add (by norm_num) (by norm_num), ← ENNReal.ofReal_add (by norm_num) (by norm_num)]
  norm_num⟩

/-- Their lengths as weights -/
def W : Int → ℝ := fun id => if id = 1 then 2 else if id = 5 then 4 else 3

theorem weighted : Weighted ExS.l W three := by
  have hst : stored ExS.l = [1, 5, 3] := by decide +kernel
  intro id hid
  rw [hst] at hid ⊢
  simp only [List.mem_cons, List.not_mem_nil, or_false] at hid
  rcases hid with rfl | rfl | rfl <;> refine ⟨by norm_num [W], ?_⟩ <;>
    norm_num [W, three, drawn, hst, Measure.dirac_apply', Set.indicator]

/-- To free five: the second, and then the first, or the third and the first, … -/
example : (Measure.infinitePi fun _ : Nat => three)
    {w | ∃ n s', (ExS.build (.uniform {})).eject 5 ((List.range n).map w) = (s', .ok [5, 1])} = ENNReal.ofReal (8 / 45) := by
  rw [C149 (ExS.tracked .uniform) (by intro f; simp [ExS.build, Strategy.track, Strategy.forget, Res.lift]) (by decide) weighted
    ⟨by decide, by simp [ExS.l], by decide, by
      intro pre last h
      have : pre = [5] := by
        rcases pre with _ | ⟨x, _ | ⟨y, pre⟩⟩ <;> simp at h ⊢
        exact h.1.symm
      subst this
      decide⟩ (by decide +kernel)]
  congr 1
  rw [show stored ExS.l = [1, 5, 3] by decide +kernel]
  norm_num [oneByOne, W]

end Ex

end EjectLaw

end Verif.Props
