import Verif.Model.EpsGreedy
import Mathlib.Probability.ProductMeasure
import Mathlib.Probability.Distributions.Uniform
import Mathlib.MeasureTheory.Measure.Prod
import Mathlib.MeasureTheory.Measure.Lebesgue.Basic
import Mathlib.Analysis.SpecialFunctions.Exponential

/-!
# C146, C147: the ε-greedy policy
-/

namespace Verif.Props

namespace EpsGreedy

open Verif.EpsGreedy MeasureTheory
open scoped ENNReal Classical

variable {d : Nat} [NeZero d]

/-! ## Specification -/

/-- The exploration rate in the call after `k` calls -/
noncomputable def rate (initial target : ℝ) (duration : Int) (k : Nat) : ℝ :=
  target + (initial - target) * Real.exp (-(k / duration))

/-- The law of the numbers in `[0, 1)` that a generator gives, independent of each other -/
noncomputable def rands : Measure (Nat → ℝ) := Measure.infinitePi fun _ => volume.restrict (Set.Ico 0 1)

/-- The law of the numbers below `d` that a generator gives, independent of each other and equally likely -/
noncomputable def ints (d : Nat) [NeZero d] : Measure (Nat → Fin d) :=
  Measure.infinitePi fun _ => (PMF.uniformOfFintype (Fin d)).toMeasure

/-- The probability of action `a`, with exploration rate `e` and `g` the best action -/
noncomputable def chance (e : ℝ) (g a : Fin d) : ℝ := (if a = g then 1 - e else 0) + e / d

/-- The probability of actions for the rows of a call, independent of each other -/
noncomputable def chances (e : ℝ) (pick : (Fin d → ℝ) → Fin d) (qs : List (Fin d → ℝ)) (as : List (Fin d)) : ℝ≥0∞ :=
  if as.length = qs.length then ((qs.zip as).map fun x => ENNReal.ofReal (chance e (pick x.1) x.2)).prod else 0

/-! ## Proofs -/

theorem argmax_best (q : Fin d → ℝ) (b : Fin d) : q b ≤ q (argmax q) := by
  have key : ∀ (l : List (Fin d)) (x : Fin d),
      q x ≤ q (l.foldl (fun best i => if q best < q i then i else best) x) ∧
      ∀ y ∈ l, q y ≤ q (l.foldl (fun best i => if q best < q i then i else best) x) := by
    intro l
    induction l with
    | nil => intro x; simp
    | cons z l ih =>
      intro x
      simp only [List.foldl_cons, List.mem_cons, forall_eq_or_imp]
      by_cases h : q x < q z
      · rw [if_pos h]
        exact ⟨h.le.trans (ih z).1, (ih z).1, (ih z).2⟩
      · rw [if_neg h]
        exact ⟨(ih x).1, (not_lt.1 h).trans (ih x).1, (ih x).2⟩
  exact (key (List.finRange d) 0).2 b (List.mem_finRange b)

instance unif_prob : IsProbabilityMeasure ((volume : Measure ℝ).restrict (Set.Ico 0 1)) := by
  constructor; simp

instance : IsProbabilityMeasure rands := by unfold rands; infer_instance
instance : IsProbabilityMeasure (ints d) := by unfold ints; infer_instance

abbrev Omega (d : Nat) := (Nat → ℝ) × (Nat → Fin d)

/-- The first `i` numbers of one generator and the first `j` of the other are in these sets. -/
def Box (i : Nat) (tU : Nat → Set ℝ) (j : Nat) (tC : Nat → Set (Fin d)) : Set (Omega d) :=
  (Set.pi (Finset.range i) tU) ×ˢ (Set.pi (Finset.range j) tC)

theorem box_measure {i : Nat} {tU : Nat → Set ℝ} (hU : ∀ m, MeasurableSet (tU m)) {j : Nat} {tC : Nat → Set (Fin d)} :
    (rands.prod (ints d)) (Box i tU j tC) =
      (∏ m ∈ Finset.range i, volume.restrict (Set.Ico 0 1) (tU m)) *
      ∏ m ∈ Finset.range j, (PMF.uniformOfFintype (Fin d)).toMeasure (tC m) := by
  unfold Box rands ints
  rw [Measure.prod_prod, Measure.infinitePi_pi _ fun m _ => hU m, Measure.infinitePi_pi _ fun m _ => .of_discrete]

omit [NeZero d] in
theorem box_meas {i : Nat} {tU : Nat → Set ℝ} (hU : ∀ m, MeasurableSet (tU m)) {j : Nat} {tC : Nat → Set (Fin d)} :
    MeasurableSet (Box i tU j tC) :=
  (MeasurableSet.pi (Finset.countable_toSet _) fun m _ => hU m).prod
    (MeasurableSet.pi (Finset.countable_toSet _) fun _ _ => .of_discrete)

theorem pi_succ {α : Type} {i : Nat} (t : Nat → Set α) (s : Set α) :
    Set.pi (Finset.range (i + 1)) (Function.update t i s) = Set.pi (Finset.range i) t ∩ {f | f i ∈ s} := by
  ext f
  simp only [Set.mem_pi, Finset.coe_range, Set.mem_Iio, Set.mem_inter_iff, Set.mem_ofPred_eq]
  constructor
  · intro h
    refine ⟨fun m hm => ?_, by simpa using h i (by omega)⟩
    have := h m (by omega)
    rwa [Function.update_of_ne (by omega)] at this
  · rintro ⟨h1, h2⟩ m hm
    by_cases hmi : m = i
    · subst hmi; simpa using h2
    · rw [Function.update_of_ne hmi]; exact h1 m (by omega)

theorem prod_succ {α : Type} {i : Nat} (t : Nat → Set α) (s : Set α) (μ : Set α → ℝ≥0∞) :
    (∏ m ∈ Finset.range (i + 1), μ (Function.update t i s m)) = (∏ m ∈ Finset.range i, μ (t m)) * μ s := by
  rw [Finset.prod_range_succ, Function.update_self]
  congr 1
  refine Finset.prod_congr rfl fun m hm => ?_
  rw [Function.update_of_ne (by have := Finset.mem_range.1 hm; omega)]

/-- What happens after `i` and `j` numbers were taken is independent of those, and has probability `κ`. -/
structure Fresh (E : Nat → Nat → Set (Omega d)) (κ : ℝ≥0∞) : Prop where
  meas : ∀ i j, MeasurableSet (E i j)
  free : ∀ i j tU tC, (∀ m, MeasurableSet (tU m)) →
    (rands.prod (ints d)) (Box i tU j tC ∩ E i j) = (rands.prod (ints d)) (Box i tU j tC) * κ

theorem fresh_const (p : Prop) : Fresh (d := d) (fun _ _ => {_w | p}) (if p then 1 else 0) := by
  constructor
  · intro i j; exact .const p
  · intro i j tU tC hU
    by_cases hp : p <;> simp [hp]

theorem unif_lt {e : ℝ} (h1 : e ≤ 1) : (volume : Measure ℝ).restrict (Set.Ico 0 1) (Set.Iio e) = ENNReal.ofReal e := by
  rw [Measure.restrict_apply measurableSet_Iio]
  have : Set.Iio e ∩ Set.Ico 0 1 = Set.Ico 0 e := by
    ext x; simp only [Set.mem_inter_iff, Set.mem_Iio, Set.mem_Ico]
    constructor
    · rintro ⟨a, b, c⟩; exact ⟨b, a⟩
    · rintro ⟨a, b⟩; exact ⟨b, a, b.trans_le h1⟩
  rw [this, Real.volume_Ico, sub_zero]

theorem unif_ge {e : ℝ} (h0 : 0 ≤ e) : (volume : Measure ℝ).restrict (Set.Ico 0 1) (Set.Ici e) = ENNReal.ofReal (1 - e) := by
  rw [Measure.restrict_apply measurableSet_Ici]
  have : Set.Ici e ∩ Set.Ico 0 1 = Set.Ico e 1 := by
    ext x; simp only [Set.mem_inter_iff, Set.mem_Ici, Set.mem_Ico]
    constructor
    · rintro ⟨a, b, c⟩; exact ⟨a, c⟩
    · rintro ⟨a, b⟩; exact ⟨a, h0.trans a, b⟩
  rw [this, Real.volume_Ico]

theorem int_eq (a : Fin d) : (PMF.uniformOfFintype (Fin d)).toMeasure {a} = ENNReal.ofReal (1 / d) := by
  rw [PMF.toMeasure_apply_singleton _ _ (.of_discrete), PMF.uniformOfFintype_apply, Fintype.card_fin, one_div,
    ENNReal.ofReal_inv_of_pos (by have := NeZero.pos d; exact_mod_cast this), ENNReal.ofReal_natCast]

/-- One row -/
def Row (e : ℝ) (g a : Fin d) (E : Nat → Nat → Set (Omega d)) (i j : Nat) : Set (Omega d) :=
  {w | (w.1 i < e ∧ w.2 j = a ∧ w ∈ E (i + 1) (j + 1)) ∨ (e ≤ w.1 i ∧ g = a ∧ w ∈ E (i + 1) j)}

theorem fresh_row {e : ℝ} (h0 : 0 ≤ e) (h1 : e ≤ 1) (g a : Fin d) {E : Nat → Nat → Set (Omega d)} {κ : ℝ≥0∞}
    (hE : Fresh E κ) : Fresh (Row e g a E) (ENNReal.ofReal (chance e g a) * κ) := by
  have hu : ∀ i, Measurable fun w : Omega d => w.1 i := fun i => (measurable_pi_apply i).comp measurable_fst
  have hc : ∀ j, Measurable fun w : Omega d => w.2 j := fun j => (measurable_pi_apply j).comp measurable_snd
  have m1 : ∀ i j, MeasurableSet {w : Omega d | w.1 i < e ∧ w.2 j = a ∧ w ∈ E (i + 1) (j + 1)} := fun i j =>
    (measurableSet_lt (hu i) measurable_const).inter (((hc j) (.of_discrete (s := {a}))).inter (hE.meas _ _))
  have m2 : ∀ i j, MeasurableSet {w : Omega d | e ≤ w.1 i ∧ g = a ∧ w ∈ E (i + 1) j} := fun i j =>
    (measurableSet_le measurable_const (hu i)).inter ((MeasurableSet.const (g = a)).inter (hE.meas _ _))
  refine ⟨fun i j => (m1 i j).union (m2 i j), fun i j tU tC hU => ?_⟩
  have hsplit : Box i tU j tC ∩ Row e g a E i j =
      (Box (i + 1) (Function.update tU i (Set.Iio e)) (j + 1) (Function.update tC j {a}) ∩ E (i + 1) (j + 1)) ∪
      ((Box (i + 1) (Function.update tU i (Set.Ici e)) j tC ∩ E (i + 1) j) ∩ {_w | g = a}) := by
    unfold Box Row
    rw [pi_succ, pi_succ, pi_succ]
    ext ⟨u, c⟩
    simp only [Set.mem_inter_iff, Set.mem_union, Set.mem_prod, Set.mem_ofPred_eq, Set.mem_Iio, Set.mem_Ici, Set.mem_singleton_iff]
    tauto
  have hd : Disjoint (Box (i + 1) (Function.update tU i (Set.Iio e)) (j + 1) (Function.update tC j {a}) ∩ E (i + 1) (j + 1))
      ((Box (i + 1) (Function.update tU i (Set.Ici e)) j tC ∩ E (i + 1) j) ∩ {_w | g = a}) := by
    rw [Set.disjoint_left]
    unfold Box
    rw [pi_succ, pi_succ, pi_succ]
    rintro ⟨u, c⟩ ⟨⟨⟨-, h1⟩, -⟩, -⟩ ⟨⟨⟨⟨-, h2⟩, -⟩, -⟩, -⟩
    exact absurd (show u i < e from h1) (not_lt.2 (show e ≤ u i from h2))
  have hu' : ∀ s : Set ℝ, MeasurableSet s → ∀ m, MeasurableSet (Function.update tU i s m) := by
    intro s hs m
    by_cases h : m = i
    · subst h; rwa [Function.update_self]
    · rw [Function.update_of_ne h]; exact hU m
  have ha1 := hE.free (i + 1) (j + 1) _ (Function.update tC j {a}) (hu' _ (measurableSet_Iio (a := e)))
  have ha2 := hE.free (i + 1) j _ tC (hu' _ (measurableSet_Ici (a := e)))
  rw [hsplit, measure_union hd (((box_meas (hu' _ measurableSet_Ici)).inter (hE.meas _ _)).inter (.const _)), ha1]
  have hg : (rands.prod (ints d)) ((Box (i + 1) (Function.update tU i (Set.Ici e)) j tC ∩ E (i + 1) j) ∩ {_w | g = a}) =
      if g = a then (rands.prod (ints d)) (Box (i + 1) (Function.update tU i (Set.Ici e)) j tC ∩ E (i + 1) j) else 0 := by
    by_cases h : g = a <;> simp [h]
  rw [hg, ha2, box_measure (hu' _ measurableSet_Iio), box_measure (hu' _ measurableSet_Ici), box_measure hU,
    prod_succ tU _ fun s => volume.restrict (Set.Ico 0 1) s, prod_succ tU _ fun s => volume.restrict (Set.Ico 0 1) s,
    prod_succ tC _ fun s => (PMF.uniformOfFintype (Fin d)).toMeasure s, unif_lt h1, unif_ge h0, int_eq]
  have hd0 : (0 : ℝ) ≤ 1 / d := by positivity
  have hch : ENNReal.ofReal (chance e g a) = (if g = a then ENNReal.ofReal (1 - e) else 0) + ENNReal.ofReal e * ENNReal.ofReal (1 / d) := by
    unfold chance
    rw [← ENNReal.ofReal_mul h0, mul_one_div]
    by_cases h : g = a
    · rw [if_pos h.symm, if_pos h, ENNReal.ofReal_add (by linarith) (by positivity)]
    · rw [if_neg (Ne.symm h), if_neg h, zero_add, zero_add]
  rw [hch]
  by_cases h : g = a
  · rw [if_pos h, if_pos h]; ring
  · rw [if_neg h, if_neg h]; ring

/-- The rows of one call -/
theorem fresh_loop {e : ℝ} (h0 : 0 ≤ e) (h1 : e ≤ 1) {E : Nat → Nat → Set (Omega d)} {κ : ℝ≥0∞} (hE : Fresh E κ)
    (qs : List (Fin d → ℝ)) (as : List (Fin d)) :
    Fresh (fun i j => {w : Omega d | ∃ i' j', loop e w.1 w.2 qs i j = (as, i', j') ∧ w ∈ E i' j'})
      (chances e argmax qs as * κ) := by
  induction qs generalizing as with
  | nil =>
    cases as with
    | nil =>
      have : (fun i j => {w : Omega d | ∃ i' j', loop e w.1 w.2 [] i j = ([], i', j') ∧ w ∈ E i' j'}) = E := by
        funext i j; ext w
        simp only [loop, Set.mem_ofPred_eq, Prod.mk.injEq, true_and]
        constructor
        · rintro ⟨_, _, ⟨rfl, rfl⟩, h⟩; exact h
        · intro h; exact ⟨i, j, ⟨rfl, rfl⟩, h⟩
      rw [this]
      simpa [chances] using hE
    | cons a as => simpa [loop, chances] using fresh_const (d := d) False
  | cons q qs ih =>
    cases as with
    | nil =>
      have : (fun i j => {w : Omega d | ∃ i' j', loop e w.1 w.2 (q :: qs) i j = ([], i', j') ∧ w ∈ E i' j'})
          = fun _ _ => {_w | False} := by
        funext i j; ext w
        simp only [loop, Set.mem_ofPred_eq, iff_false, not_exists]
        intro i' j'
        split <;> simp
      rw [this]
      simpa [chances] using fresh_const (d := d) False
    | cons a as =>
      have : (fun i j => {w : Omega d | ∃ i' j', loop e w.1 w.2 (q :: qs) i j = (a :: as, i', j') ∧ w ∈ E i' j'})
          = Row e (argmax q) a fun i j => {w : Omega d | ∃ i' j', loop e w.1 w.2 qs i j = (as, i', j') ∧ w ∈ E i' j'} := by
        funext i j; ext w
        simp only [Row, Set.mem_ofPred_eq]
        by_cases h : w.1 i < e
        · have hl : loop e w.1 w.2 (q :: qs) i j = (w.2 j :: (loop e w.1 w.2 qs (i + 1) (j + 1)).1, (loop e w.1 w.2 qs (i + 1) (j + 1)).2) := by
            simp [loop, h]
          rw [hl]
          simp only [h, true_and, not_le.2 h, false_and, or_false]
          generalize loop e w.1 w.2 qs (i + 1) (j + 1) = r
          obtain ⟨r1, r2, r3⟩ := r
          simp only [Prod.mk.injEq, List.cons.injEq]
          constructor
          · rintro ⟨i', j', ⟨⟨g1, g2⟩, g3, g4⟩, g5⟩; exact ⟨g1, i', j', ⟨g2, g3, g4⟩, g5⟩
          · rintro ⟨g1, i', j', ⟨g2, g3, g4⟩, g5⟩; exact ⟨i', j', ⟨⟨g1, g2⟩, g3, g4⟩, g5⟩
        · have hl : loop e w.1 w.2 (q :: qs) i j = (argmax q :: (loop e w.1 w.2 qs (i + 1) j).1, (loop e w.1 w.2 qs (i + 1) j).2) := by
            simp [loop, h]
          rw [hl]
          simp only [h, false_and, false_or, not_lt.1 h, true_and]
          generalize loop e w.1 w.2 qs (i + 1) j = r
          obtain ⟨r1, r2, r3⟩ := r
          simp only [Prod.mk.injEq, List.cons.injEq]
          constructor
          · rintro ⟨i', j', ⟨⟨g1, g2⟩, g3, g4⟩, g5⟩; exact ⟨g1, i', j', ⟨g2, g3, g4⟩, g5⟩
          · rintro ⟨g1, i', j', ⟨g2, g3, g4⟩, g5⟩; exact ⟨i', j', ⟨⟨g1, g2⟩, g3, g4⟩, g5⟩
      rw [this]
      have := fresh_row h0 h1 (argmax q) a (ih as)
      rw [← mul_assoc] at this
      convert this using 2
      unfold chances
      by_cases hl : as.length = qs.length <;> simp [hl]

theorem loop_length (e : ℝ) (u : Nat → ℝ) (c : Nat → Fin d) (qs : List (Fin d → ℝ)) (i j : Nat) :
    (loop e u c qs i j).1.length = qs.length := by
  induction qs generalizing i j with
  | nil => simp [loop]
  | cons q qs ih =>
    simp only [loop]
    split <;> simp [ih]

theorem epsilon_eq {s : State} (h : s.duration ≠ 0) :
    epsilon s = .ok (rate s.initial s.target s.duration s.steps) := by
  unfold epsilon rate
  rw [if_neg h, neg_one_mul, neg_div]

/-- Calls go on. -/
theorem calls_ok (u : Nat → ℝ) (c : Nat → Fin d) (world : List (List (Fin d)) → List (Fin d → ℝ)) (n : Nat) :
    ∀ {s : State}, s.duration ≠ 0 → ∀ past, ∃ s' ass, calls u c world n s past = .ok (s', past ++ ass) ∧ ass.length = n ∧
      s'.steps = s.steps + n ∧ ∀ (k : Nat) as, ass[k]? = some as → as.length = (world (past ++ ass.take k)).length := by
  induction n with
  | zero => intro s h past; exact ⟨s, [], by simp [calls], rfl, rfl, by simp⟩
  | succ n ih =>
    intro s h past
    simp only [calls, forward, epsilon_eq h]
    obtain ⟨s', ass, h1, h2, h3, h4⟩ := ih (s := { s with
      steps := s.steps + 1
      rands := (loop (rate s.initial s.target s.duration s.steps) u c (world past) s.rands s.ints).2.1
      ints := (loop (rate s.initial s.target s.duration s.steps) u c (world past) s.rands s.ints).2.2 }) h
      (past ++ [(loop (rate s.initial s.target s.duration s.steps) u c (world past) s.rands s.ints).1])
    refine ⟨s', (loop (rate s.initial s.target s.duration s.steps) u c (world past) s.rands s.ints).1 :: ass,
      by rw [h1]; simp, by simp [h2], by rw [h3]; simp only; omega, ?_⟩
    intro k as hk
    cases k with
    | zero =>
      simp only [List.getElem?_cons_zero, Option.some.injEq] at hk
      rw [← hk]; simpa using loop_length ..
    | succ k =>
      have := h4 k as (by simpa using hk)
      simpa using this

theorem rate_mem {a b : ℝ} {D : Int} (ha : 0 ≤ a ∧ a ≤ 1) (hb : 0 ≤ b ∧ b ≤ 1) (hD : 0 < D) (k : Nat) :
    0 ≤ rate a b D k ∧ rate a b D k ≤ 1 := by
  have h1 : 0 < Real.exp (-(k / D : ℝ)) := Real.exp_pos _
  have h2 : Real.exp (-(k / D : ℝ)) ≤ 1 := Real.exp_le_one_iff.2 (by
    have : (0 : ℝ) < D := by exact_mod_cast hD
    have : (0 : ℝ) ≤ k / D := by positivity
    linarith)
  unfold rate
  generalize Real.exp (-(k / D : ℝ)) = x at h1 h2
  constructor <;> nlinarith [ha.1, ha.2, hb.1, hb.2]

/-- The law of a sequence of calls -/
theorem fresh_calls {a b : ℝ} {D : Int} (ha : 0 ≤ a ∧ a ≤ 1) (hb : 0 ≤ b ∧ b ≤ 1) (hD : 0 < D)
    (world : List (List (Fin d)) → List (Fin d → ℝ)) (n : Nat) : ∀ (k : Nat) (past ass : List (List (Fin d))),
    Fresh (fun i j => {w : Omega d | ∃ s', calls w.1 w.2 world n ⟨a, b, D, k, i, j⟩ past = .ok (s', past ++ ass)})
      (if ass.length = n then ∏ m : Fin ass.length,
        chances (rate a b D (k + m)) argmax (world (past ++ ass.take m)) ass[m] else 0) := by
  induction n with
  | zero =>
    intro k past ass
    cases ass with
    | nil => simpa [calls] using fresh_const (d := d) True
    | cons as ass => simpa [calls] using fresh_const (d := d) False
  | succ n ih =>
    intro k past ass
    have hstep : ∀ (w : Omega d) i j out, (∃ s', calls w.1 w.2 world (n + 1) ⟨a, b, D, k, i, j⟩ past = .ok (s', out)) ↔
        ∃ s', calls w.1 w.2 world n ⟨a, b, D, k + 1, (loop (rate a b D k) w.1 w.2 (world past) i j).2.1,
            (loop (rate a b D k) w.1 w.2 (world past) i j).2.2⟩ (past ++ [(loop (rate a b D k) w.1 w.2 (world past) i j).1])
          = .ok (s', out) := by
      intro w i j out
      simp only [calls, forward, epsilon_eq (s := ⟨a, b, D, k, i, j⟩) hD.ne']
    cases ass with
    | nil =>
      have : (fun i j => {w : Omega d | ∃ s', calls w.1 w.2 world (n + 1) ⟨a, b, D, k, i, j⟩ past = .ok (s', past ++ [])})
          = fun _ _ => {_w | False} := by
        funext i j; ext w
        simp only [Set.mem_ofPred_eq, iff_false]
        rintro ⟨s', h⟩
        obtain ⟨s'', ass, h1, h2, -⟩ := calls_ok w.1 w.2 world (n + 1) (s := ⟨a, b, D, k, i, j⟩) hD.ne' past
        rw [h1] at h
        simp only [Except.ok.injEq, Prod.mk.injEq, List.append_cancel_left_eq] at h
        rw [h.2] at h2
        simp at h2
      rw [this]
      simpa using fresh_const (d := d) False
    | cons as ass =>
      have : (fun i j => {w : Omega d | ∃ s', calls w.1 w.2 world (n + 1) ⟨a, b, D, k, i, j⟩ past = .ok (s', past ++ as :: ass)})
          = fun i j => {w : Omega d | ∃ i' j', loop (rate a b D k) w.1 w.2 (world past) i j = (as, i', j') ∧
              w ∈ {w : Omega d | ∃ s', calls w.1 w.2 world n ⟨a, b, D, k + 1, i', j'⟩ (past ++ [as]) = .ok (s', (past ++ [as]) ++ ass)}} := by
        funext i j; ext w
        simp only [Set.mem_ofPred_eq]
        rw [hstep]
        constructor
        · intro h
          obtain ⟨s', h⟩ := h
          obtain ⟨s'', ass', h1, -⟩ := calls_ok w.1 w.2 world n (s := ⟨a, b, D, k + 1, (loop (rate a b D k) w.1 w.2 (world past) i j).2.1,
            (loop (rate a b D k) w.1 w.2 (world past) i j).2.2⟩) hD.ne' (past ++ [(loop (rate a b D k) w.1 w.2 (world past) i j).1])
          have h2 := h1.symm.trans h
          simp only [Except.ok.injEq, Prod.mk.injEq, List.append_assoc, List.append_cancel_left_eq, List.singleton_append,
            List.cons.injEq] at h2
          obtain ⟨-, h3, h4⟩ := h2
          refine ⟨_, _, Prod.ext h3 rfl, s', ?_⟩
          rw [h3] at h
          simpa using h
        · rintro ⟨i', j', h1, s', h2⟩
          rw [h1]
          exact ⟨s', by simpa using h2⟩
      rw [this]
      have hr := rate_mem ha hb hD k
      have := fresh_loop hr.1 hr.2 (ih (k + 1) (past ++ [as]) ass) (world past) as
      convert this using 2
      by_cases hl : ass.length = n
      · rw [if_pos (by simp [hl]), if_pos hl]
        have := Fin.prod_univ_succ (n := ass.length) fun m : Fin (ass.length + 1) =>
          chances (rate a b D (k + m)) argmax (world (past ++ (as :: ass).take m)) (as :: ass)[m]
        refine this.trans ?_
        simp [Nat.add_assoc, Nat.add_comm 1]
      · rw [if_neg (by simpa using hl), if_neg hl, mul_zero]

theorem chance_sum (e : ℝ) (g : Fin d) : ∑ a, chance e g a = 1 := by
  have hd : (d : ℝ) ≠ 0 := by exact_mod_cast NeZero.ne d
  simp only [chance, Finset.sum_add_distrib, Finset.sum_ite_eq', Finset.mem_univ, if_true, Finset.sum_const, Finset.card_univ,
    Fintype.card_fin, nsmul_eq_mul]
  field_simp
  ring

/-- **C146**: In every sequence of calls, whatever the environments do with the actions and the training with the network,
the probability of the actions that are chosen is the product over the calls and rows of the chance of the action: a best one
with `1 - e`, and each of them with `e / d` on top, where `e` is the exploration rate after the calls before. -/
theorem C146 : ∃ pick : (Fin d → ℝ) → Fin d, (∀ (q : Fin d → ℝ) (b : Fin d), q b ≤ q (pick q)) ∧
    ∀ s : State, (0 ≤ s.initial ∧ s.initial ≤ 1) → (0 ≤ s.target ∧ s.target ≤ 1) → 0 < s.duration →
      ∀ (world : List (List (Fin d)) → List (Fin d → ℝ)) (n : Nat) (ass : List (List (Fin d))),
        (rands.prod (ints d)) {w | ∃ s', calls w.1 w.2 world n s [] = .ok (s', ass)} =
          if ass.length = n then ∏ k : Fin ass.length,
            chances (rate s.initial s.target s.duration (s.steps + k)) pick (world (ass.take k)) ass[k] else 0 := by
  refine ⟨argmax, argmax_best, fun s hi ht hD world n ass => ?_⟩
  have h := (fresh_calls hi ht hD world n s.steps [] ass).free s.rands s.ints (fun _ => Set.univ) (fun _ => Set.univ) fun _ => .univ
  have hb : Box s.rands (fun _ => Set.univ) s.ints (fun _ => Set.univ) = (Set.univ : Set (Omega d)) := by
    unfold Box; ext w; simp
  rw [hb, Set.univ_inter, measure_univ, one_mul] at h
  simpa using h

/-- **C146**: Every call gives one action for each row, and counts, whatever numbers the generators give. -/
theorem C146_calls (u : Nat → ℝ) (c : Nat → Fin d) (world : List (List (Fin d)) → List (Fin d → ℝ)) (n : Nat) {s : State}
    (h : s.duration ≠ 0) : ∃ s' ass, calls u c world n s [] = .ok (s', ass) ∧ ass.length = n ∧
      ∀ (k : Nat) as, ass[k]? = some as → as.length = (world (ass.take k)).length := by
  obtain ⟨s', ass, h1, h2, -, h4⟩ := calls_ok u c world n h []
  exact ⟨s', ass, by simpa using h1, h2, by simpa using h4⟩

/-! ## The exploration rate -/

/-- "Number of steps over which epsilon will decay" to "target epsilon" -/
def C147_claim : Prop :=
  ∀ (initial target : ℝ) (duration : Int), 0 ≤ target → target ≤ initial → initial ≤ 1 → 0 < duration →
    ∀ (u : Nat → ℝ) (c : Nat → Fin 2) (world : List (List (Fin 2)) → List (Fin 2 → ℝ)) (n : Nat) s' out, duration ≤ n →
      calls u c world n (State.new initial target duration) [] = .ok (s', out) → epsilon s' = .ok target

theorem calls_steps (u : Nat → ℝ) (c : Nat → Fin d) (world : List (List (Fin d)) → List (Fin d → ℝ)) (n : Nat) :
    ∀ {s : State} {past s' out}, calls u c world n s past = .ok (s', out) →
      s'.initial = s.initial ∧ s'.target = s.target ∧ s'.duration = s.duration ∧ s'.steps = s.steps + n := by
  induction n with
  | zero =>
    intro s past s' out h
    simp only [calls, Except.ok.injEq, Prod.mk.injEq] at h
    obtain ⟨rfl, rfl⟩ := h
    exact ⟨rfl, rfl, rfl, rfl⟩
  | succ n ih =>
    intro s past s' out h
    simp only [calls, forward] at h
    cases he : epsilon s with
    | error e => rw [he] at h; simp at h
    | ok e =>
      rw [he] at h
      obtain ⟨h1, h2, h3, h4⟩ := ih h
      exact ⟨h1, h2, h3, by rw [h4]; simp only; omega⟩

theorem calls_epsilon {initial target : ℝ} {duration : Int} (hD : duration ≠ 0) {u : Nat → ℝ} {c : Nat → Fin d}
    {world : List (List (Fin d)) → List (Fin d → ℝ)} {n : Nat} {s' : State} {out : List (List (Fin d))}
    (h : calls u c world n (State.new initial target duration) [] = .ok (s', out)) :
    epsilon s' = .ok (rate initial target duration n) := by
  obtain ⟨h1, h2, h3, h4⟩ := calls_steps u c world n h
  simp only [State.new, Nat.zero_add] at h1 h2 h3 h4
  rw [epsilon_eq (by rw [h3]; exact hD), h1, h2, h3, h4]

/-- The rate has not reached its target after that many calls, nor ever. -/
theorem C147_false : ¬ C147_claim := by
  intro h
  obtain ⟨s', ass, h1, -⟩ := calls_ok (d := 2) (fun _ => 0) (fun _ => 0) (fun _ => []) 1 (s := State.new 1 0 1) (by simp [State.new]) []
  have h2 := h 1 0 1 le_rfl (by norm_num) le_rfl (by norm_num) (fun _ => 0) (fun _ => 0) (fun _ => []) 1 s' ass (by norm_num) (by simpa using h1)
  rw [calls_epsilon (duration := 1) one_ne_zero (by simpa using h1)] at h2
  simp only [Except.ok.injEq, rate] at h2
  have := Real.exp_pos (-((1 : ℕ) / (1 : ℤ) : ℝ))
  norm_num at h2

/-- **C147**, what holds: the rate begins with the initial one, goes down towards the target and comes as near to it as one
likes; what is left of the way is divided by `exp 1` whenever `duration` calls were made. -/
theorem C147_partial {initial target : ℝ} {duration : Nat} (ht : target ≤ initial) (hD : 0 < duration) :
    ∃ e : Nat → ℝ, (∀ (u : Nat → ℝ) (c : Nat → Fin d) (world : List (List (Fin d)) → List (Fin d → ℝ)) n s' out,
        calls u c world n (State.new initial target duration) [] = .ok (s', out) → epsilon s' = .ok (e n)) ∧
      e 0 = initial ∧ Antitone e ∧ (∀ n, target ≤ e n) ∧ Filter.Tendsto e Filter.atTop (nhds target) ∧
      ∀ n, e (n + duration) - target = (e n - target) / Real.exp 1 := by
  have hd : (0 : ℝ) < duration := by exact_mod_cast hD
  refine ⟨rate initial target duration, fun u c world n s' out h => calls_epsilon (by exact_mod_cast hD.ne') h, ?_, ?_, ?_, ?_, ?_⟩
  · simp [rate]
  · intro m n hmn
    unfold rate
    have : (m : ℝ) / duration ≤ n / duration := by
      have : (m : ℝ) ≤ n := by exact_mod_cast hmn
      gcongr
    have := Real.exp_le_exp.2 (neg_le_neg this)
    push_cast
    nlinarith
  · intro n
    unfold rate
    have := Real.exp_pos (-(n / ((duration : Int) : ℝ)))
    nlinarith
  · unfold rate
    have h1 : Filter.Tendsto (fun n : ℕ => (n : ℝ) / ((duration : Int) : ℝ)) Filter.atTop Filter.atTop :=
      Filter.Tendsto.atTop_div_const (by exact_mod_cast hD) tendsto_natCast_atTop_atTop
    have h2 := (Real.tendsto_exp_neg_atTop_nhds_zero.comp h1).const_mul (initial - target)
    have h3 := h2.const_add target
    simpa using h3
  · intro n
    unfold rate
    have : -(((n + duration : ℕ) : ℝ) / ((duration : Int) : ℝ)) = -(n / ((duration : Int) : ℝ)) - 1 := by
      push_cast; field_simp; ring
    rw [this, Real.exp_sub]
    ring

/-! ## Concrete cases -/

namespace Ex

/-- Two environments; action 1 is better for both. -/
def rows : List (Fin 2 → ℝ) := [fun i => if i = 1 then 3 else 1, fun i => if i = 1 then 5 else 2]

/-- The generators give 0.3 and 0.8: the first row explores and gets action 0, the second takes the best one. -/
example : (forward (fun i => if i = 0 then 3 / 10 else 8 / 10) (fun _ => 0) rows (State.new (1 / 2) 0 100)).2 = .ok [0, 1] := by
  have hq : argmax (fun i : Fin 2 => if i = 1 then (5 : ℝ) else 2) = 1 := by
    simp only [argmax, show List.finRange 2 = [0, 1] from rfl, List.foldl_cons, List.foldl_nil]
    norm_num
  simp only [forward, State.new, epsilon, rows, loop]
  norm_num
  exact hq

/-- Nothing can be called if the decay has no duration. -/
example : (forward (fun _ => 0) (fun _ => 0) rows (State.new (1 / 2) 0 0)).2 = .error .zeroDivision := by
  simp [forward, State.new, epsilon]

/-- With an exploration rate of a half, the best action for the first row and the other for the second have probability
`3 / 4 * (1 / 4)`. -/
example : (rands.prod (ints 2)) {w | ∃ s', calls w.1 w.2 (fun _ => rows) 1 (State.new (1 / 2) 0 100) [] = .ok (s', [[1, 0]])}
    = ENNReal.ofReal (3 / 16) := by
  obtain ⟨pick, hp, h⟩ := C146 (d := 2)
  have h1 : pick (fun i : Fin 2 => if i = 1 then (3 : ℝ) else 1) = 1 := by
    have := hp (fun i : Fin 2 => if i = 1 then (3 : ℝ) else 1) 1
    generalize pick _ = x at this ⊢
    fin_cases x
    · norm_num at this
    · rfl
  have h2 : pick (fun i : Fin 2 => if i = 1 then (5 : ℝ) else 2) = 1 := by
    have := hp (fun i : Fin 2 => if i = 1 then (5 : ℝ) else 2) 1
    generalize pick _ = x at this ⊢
    fin_cases x
    · norm_num at this
    · rfl
  rw [h (State.new (1 / 2) 0 100) (by norm_num [State.new]) (by norm_num [State.new]) (by norm_num [State.new]) (fun _ => rows) 1 [[1, 0]]]
  simp only [List.length_cons, List.length_nil, if_true, Nat.zero_add]
  rw [Fin.prod_univ_one]
  simp only [chances, rows, State.new, rate, List.length_cons, List.length_nil]
  simp only [Fin.getElem_fin, Fin.val_zero, List.getElem_cons_zero, List.length_cons, List.length_nil, if_true, List.zip_cons_cons, List.zip_nil_left,
    List.map_cons, List.map_nil, List.prod_cons, List.prod_nil, h1, h2, mul_one, chance]
  rw [← ENNReal.ofReal_mul (by norm_num)]
  norm_num

example : ∃ s' ass, calls (fun _ => 0) (fun _ => (1 : Fin 2)) (fun _ => rows) 7 (State.new (9 / 10) (1 / 20) 10000) [] = .ok (s', ass) ∧
    ass.length = 7 := by
  obtain ⟨s', ass, h1, h2, -⟩ := C146_calls (fun _ => 0) (fun _ => (1 : Fin 2)) (fun _ => rows) 7 (s := State.new (9 / 10) (1 / 20) 10000)
    (by simp [State.new])
  exact ⟨s', ass, h1, h2⟩

example := C147_partial (d := 2) (initial := 9 / 10) (target := 1 / 20) (duration := 10000) (by norm_num) (by norm_num)

end Ex

end EpsGreedy

end Verif.Props
