import Verif.Model.UniformRun
import Verif.Props.RealDraws
import Verif.Props.EjectLaw
import Verif.Props.RowMean
import Mathlib.Dynamics.Ergodic.MeasurePreserving

/-!
# C155: a memory that samples and ejects at random, over any history
-/

namespace Verif.Props

namespace UniformRun

open Verif Verif.Spec MeasureTheory
open Verif.RealDraws (npChoice)
open Verif.UniformRun (Gen rest choices points ejectLoop eject store add batch Event Outcome run)
open Verif.Props.RealDraws (unit generators windowLaw choice_law offset_law)
open Verif.Props.EjectLaw (oneByOne amount)
open scoped ENNReal

variable {V : Type}

/-! ## Specification -/

open Classical in
/-- The probability that the sequences `ids` are ejected, in this order, when at least `count` transitions have to go: nothing else
than what frees enough is ejected, and each is picked among those that are left with a probability proportional to its length. -/
noncomputable def ejectLaw (l : Dict Int Nat) (count : Int) (ids : List Int) : ℝ≥0∞ :=
  if Frees l count ids then ENNReal.ofReal (oneByOne (amount l) (trackedTotal l) ids) else 0

/-- What is stored after `ids` were ejected and a sequence was added -/
def replaced (l : Dict Int Nat) (ids : List Int) (id : Int) (len : Nat) : Dict Int Nat := (l.filter fun p => p.1 ∉ ids) ++ [(id, len)]

/-- The probability of what happens over a history, if the sequences `l` are stored at its beginning: given the past, which matters only
through what is stored, what is ejected and all windows are independent. -/
noncomputable def law (lk : String) (maxlen : Int) (tc : Nat) : List (Event V) → Dict Int Nat → List Outcome → ℝ≥0∞
  | [], _, [] => 1
  | .add id seq :: es, l, .added ids :: out =>
    ejectLaw l (trackedTotal l + (rowsOf seq lk).length - maxlen) ids *
      law lk maxlen tc es (replaced l ids id (rowsOf seq lk).length) out
  | .batch count :: es, l, .drawn b :: out =>
    (if b.length = count then (b.map fun p => ENNReal.ofReal (windowLaw l tc p)).prod else 0) * law lk maxlen tc es l out
  | _, _, _ => 0

/-- What is stored after that -/
def storedAfter (lk : String) : List (Event V) → Dict Int Nat → List Outcome → Dict Int Nat
  | .add id seq :: es, l, .added ids :: out => storedAfter lk es (replaced l ids id (rowsOf seq lk).length) out
  | .batch _ :: es, l, _ :: out => storedAfter lk es l out
  | _, l, _ => l

/-- A proper history for windows of `tc` transitions: sequences have the columns of the table `t`, are not longer than the memory
and not shorter than the windows, and have new identities; batches are drawn when there is something. `used` are the identities so far. -/
def Valid (t : Table V) (tc : Nat) : List (Event V) → List Int → Prop
  | [], _ => True
  | .add id seq :: es, used => SeqOk t seq ∧ (0 ≤ id ∧ id < 2 ^ 63) ∧ id ∉ used ∧
      (∃ rows, seq.get? t.lengthKey = some rows ∧ tc ≤ rows.length ∧ 0 < rows.length ∧ (rows.length : Int) ≤ t.maxlen) ∧
      Valid t tc es (id :: used)
  | .batch _ :: es, used => used ≠ [] ∧ Valid t tc es used

/-! ## Proofs -/

/-! ### Generators -/

theorem measurable_rest : Measurable rest := measurable_pi_lambda _ fun n => measurable_pi_apply (n + 1)

/-- A first number and then the others is what the numbers are. -/
theorem map_first (ν : Measure ℝ) [IsProbabilityMeasure ν] :
    (Measure.infinitePi fun _ : Nat => ν).map (fun w => (w 0, rest w)) = ν.prod (Measure.infinitePi fun _ : Nat => ν) := by
  let cons : ℝ × (Nat → ℝ) → Nat → ℝ := fun p n => match n with | 0 => p.1 | n + 1 => p.2 n
  have hm : Measurable cons := measurable_pi_lambda _ fun n => match n with
    | 0 => measurable_fst
    | n + 1 => (measurable_pi_apply n).comp measurable_snd
  have h : (ν.prod (Measure.infinitePi fun _ : Nat => ν)).map cons = Measure.infinitePi fun _ : Nat => ν := by
    refine Measure.eq_infinitePi _ fun s t ht => ?_
    rw [Measure.map_apply hm (.pi s.countable_toSet fun i _ => ht i)]
    have hset : cons ⁻¹' (Set.pi s t) = (if 0 ∈ s then t 0 else Set.univ) ×ˢ
        Set.pi (s.preimage (· + 1) (fun _ _ _ _ h => by simpa using h)) (fun n => t (n + 1)) := by
      ext ⟨x, w⟩
      simp only [Set.mem_preimage, Set.mem_pi, Finset.mem_coe, Set.mem_prod]
      constructor
      · intro h
        refine ⟨?_, fun i hi => h (i + 1) (Finset.mem_preimage (f := (· + 1)).1 hi)⟩
        split
        · rename_i h0; exact h 0 h0
        · trivial
      · rintro ⟨h0, h1⟩ i hi
        cases i with
        | zero => rw [if_pos hi] at h0; exact h0
        | succ i => exact h1 i (Finset.mem_preimage.2 hi)
    rw [hset, Measure.prod_prod, Measure.infinitePi_pi _ fun i _ => ht (i + 1)]
    have hps : ∏ i ∈ s.preimage (· + 1) (fun _ _ _ _ h => by simpa using h), ν (t (i + 1)) = ∏ i ∈ s.erase 0, ν (t i) := by
      refine Finset.prod_bij (fun i _ => i + 1) ?_ ?_ ?_ ?_
      · intro i hi; simpa using Finset.mem_preimage.1 hi
      · intro i _ j _ h; simpa using h
      · intro i hi
        rw [Finset.mem_erase] at hi
        obtain ⟨j, rfl⟩ := Nat.exists_eq_succ_of_ne_zero hi.1
        exact ⟨j, Finset.mem_preimage.2 hi.2, rfl⟩
      · intro i _; rfl
    rw [hps]
    split
    · rename_i h0; rw [Finset.mul_prod_erase s (fun i => ν (t i)) h0]
    · rename_i h0; rw [measure_univ, one_mul, Finset.erase_eq_of_notMem h0]
  conv_lhs => rw [← h]
  rw [Measure.map_map ((measurable_pi_apply 0).prodMk measurable_rest) hm]
  exact Measure.map_id

/-- A set of numbers of both generators with its probability -/
def Has (S : Set (Gen × Gen)) (x : ℝ≥0∞) : Prop := MeasurableSet S ∧ generators S = x

theorem preserves_first : MeasurePreserving (fun w : Gen => (w 0, rest w)) (Measure.infinitePi fun _ : Nat => unit)
    (unit.prod (Measure.infinitePi fun _ : Nat => unit)) :=
  ⟨(measurable_pi_apply 0).prodMk measurable_rest, map_first unit⟩

instance : IsProbabilityMeasure generators := by unfold generators; infer_instance

/-- One number of the first generator -/
theorem Has.firstU {A : Set ℝ} (hA : MeasurableSet A) {K : Set (Gen × Gen)} {x : ℝ≥0∞} (hK : Has K x) :
    Has {w | w.1 0 ∈ A ∧ (rest w.1, w.2) ∈ K} (unit A * x) := by
  have hp : MeasurePreserving (fun w : Gen × Gen => ((w.1 0, rest w.1), w.2)) generators
      ((unit.prod (Measure.infinitePi fun _ : Nat => unit)).prod (Measure.infinitePi fun _ : Nat => unit)) :=
    preserves_first.prod (MeasurePreserving.id _)
  have ha : MeasurePreserving (fun w : (ℝ × Gen) × Gen => (w.1.1, (w.1.2, w.2)))
      ((unit.prod (Measure.infinitePi fun _ : Nat => unit)).prod (Measure.infinitePi fun _ : Nat => unit))
      (unit.prod generators) := measurePreserving_prodAssoc _ _ _
  have h := ha.comp hp
  refine ⟨h.measurable (hA.prod hK.1), ?_⟩
  have := h.measure_preimage (hA.prod hK.1).nullMeasurableSet
  rw [Measure.prod_prod, hK.2] at this
  exact this

/-- One number of the second generator -/
theorem Has.firstV {A : Set ℝ} (hA : MeasurableSet A) {K : Set (Gen × Gen)} {x : ℝ≥0∞} (hK : Has K x) :
    Has {w | w.2 0 ∈ A ∧ (w.1, rest w.2) ∈ K} (unit A * x) := by
  have hs : MeasurePreserving (Prod.swap : Gen × Gen → Gen × Gen) generators generators := Measure.measurePreserving_swap
  have hK' : Has (Prod.swap ⁻¹' K) x := ⟨hs.measurable hK.1, by rw [hs.measure_preimage hK.1.nullMeasurableSet, hK.2]⟩
  have h := hK'.firstU hA
  refine ⟨hs.measurable h.1, ?_⟩
  rw [← h.2]
  exact hs.measure_preimage h.1.nullMeasurableSet

theorem Has.empty : Has ∅ 0 := ⟨.empty, measure_empty⟩

theorem Has.congr {S T : Set (Gen × Gen)} {x y : ℝ≥0∞} (h : Has S x) (hS : T = S) (hx : y = x) : Has T y := by
  subst hS hx; exact h

/-- Some choices, and then something -/
theorem choices_law {ids : List Int} {ws : List ℝ} (hl : ids.length = ws.length) (hw : ∀ w ∈ ws, 0 ≤ w) (hs : ws.sum = 1)
    {K : Set (Gen × Gen)} {x : ℝ≥0∞} (hK : Has K x) : ∀ (n : Nat) (chosen : List Int),
    Has {w | ∃ u', choices ids ws n w.1 = .ok (chosen, u') ∧ (u', w.2) ∈ K}
      ((if chosen.length = n then (chosen.map fun id => unit {u | npChoice ids ws u = .ok id}).prod else 0) * x) := by
  intro n
  induction n with
  | zero =>
    intro chosen
    cases chosen with
    | nil =>
      refine hK.congr ?_ (by simp)
      ext w
      simp [choices]
    | cons c chosen =>
      refine Has.empty.congr ?_ (by simp)
      ext w
      simp [choices]
  | succ n ih =>
    intro chosen
    cases chosen with
    | nil =>
      refine Has.empty.congr ?_ (by simp)
      ext w
      simp only [choices, Set.mem_ofPred_eq, Set.mem_empty_iff_false, iff_false]
      rintro ⟨u', h, _⟩
      split at h
      · simp at h
      · split at h <;> simp at h
    | cons c chosen =>
      refine ((ih chosen).firstU (choice_law hl hw hs c).2).congr ?_ ?_
      · ext w
        simp only [choices, Set.mem_ofPred_eq]
        constructor
        · rintro ⟨u', h, hu⟩
          split at h
          · simp at h
          · rename_i id hid
            split at h
            · simp at h
            · rename_i l u1 hl1
              simp only [Except.ok.injEq, Prod.mk.injEq, List.cons.injEq] at h
              obtain ⟨⟨rfl, rfl⟩, rfl⟩ := h
              exact ⟨hid, u1, hl1, hu⟩
        · rintro ⟨h, u', hu', hu⟩
          refine ⟨u', ?_, hu⟩
          rw [h]
          simp only [hu']
      · simp only [List.length_cons, Nat.add_right_cancel_iff, List.map_cons, List.prod_cons]
        split
        · rw [mul_assoc]
        · simp

/-- The numbers of the second generator that give a window -/
def offsets (l : Dict Int Nat) (tc : Int) (p : SamplePoint) : Set ℝ :=
  {x | ∃ len, l.get? p.1 = some len ∧ pyInt (x * (((len : Int) - (tc - 1) : Int) : ℝ)) = p.2.1 ∧ p.2.2 = p.2.1 + tc}

theorem measurable_offsets (l : Dict Int Nat) (tc : Int) (p : SamplePoint) : MeasurableSet (offsets l tc p) := by
  unfold offsets
  cases l.get? p.1 with
  | none => simp
  | some len =>
    simp only [Option.some.injEq, exists_eq_left']
    by_cases he : p.2.2 = p.2.1 + tc
    · simp only [he, and_true]; exact (offset_law _ _).2
    · simp [he]

/-- The windows in them, and then something -/
theorem points_law (l : Dict Int Nat) (tc : Int) {K : Set (Gen × Gen)} {x : ℝ≥0∞} (hK : Has K x) : ∀ (pts : List SamplePoint)
    (chosen : List Int), Has {w | ∃ v', points l tc chosen w.2 = .ok (pts, v') ∧ (w.1, v') ∈ K}
      ((if pts.map Prod.fst = chosen then (pts.map fun p => unit (offsets l tc p)).prod else 0) * x) := by
  intro pts
  induction pts with
  | nil =>
    intro chosen
    cases chosen with
    | nil =>
      refine hK.congr ?_ (by simp)
      ext w
      simp [points]
    | cons c chosen =>
      refine Has.empty.congr ?_ (by simp)
      ext w
      simp only [points, Set.mem_ofPred_eq, Set.mem_empty_iff_false, iff_false]
      rintro ⟨u', h, _⟩
      split at h
      · simp at h
      · split at h <;> simp at h
  | cons p pts ih =>
    intro chosen
    cases chosen with
    | nil =>
      refine Has.empty.congr ?_ (by simp)
      ext w
      simp [points]
    | cons c chosen =>
      by_cases hc : p.1 = c
      · subst hc
        refine ((ih chosen).firstV (measurable_offsets l tc p)).congr ?_ ?_
        · ext w
          obtain ⟨p1, p2, p3⟩ := p
          simp only [points, Set.mem_ofPred_eq, offsets]
          constructor
          · rintro ⟨v', h, hv⟩
            split at h
            · simp at h
            · rename_i len hlen
              split at h
              · simp at h
              · rename_i pts' v1 hp1
                simp only [Except.ok.injEq, Prod.mk.injEq, List.cons.injEq] at h
                obtain ⟨⟨⟨_, h1, h2⟩, rfl⟩, rfl⟩ := h
                exact ⟨⟨len, hlen, h1, by rw [← h2, h1]⟩, v1, hp1, hv⟩
          · rintro ⟨⟨len, hlen, h1, h2⟩, v', hv', hv⟩
            refine ⟨v', ?_, hv⟩
            rw [hlen]
            simp only [hv', h1, ← h2]
        · simp only [List.map_cons, List.cons.injEq, true_and, List.prod_cons]
          split
          · rw [mul_assoc]
          · simp
      · refine Has.empty.congr ?_ (by simp [hc])
        ext w
        simp only [points, Set.mem_ofPred_eq, Set.mem_empty_iff_false, iff_false]
        rintro ⟨u', h, _⟩
        split at h
        · simp at h
        · split at h
          · simp at h
          · simp only [Except.ok.injEq, Prod.mk.injEq, List.cons.injEq] at h
            obtain ⟨⟨h1, _⟩, _⟩ := h
            exact hc (by rw [← h1])

/-! ### Ejection -/

/-- How the sequences `l` are drawn: in proportion to their lengths -/
structure Fair (l : Dict Int Nat) (ws : List ℝ) : Prop where
  nodup : l.keys.Nodup
  pos : ∀ p ∈ l, 0 < p.2
  length : l.keys.length = ws.length
  nonneg : ∀ w ∈ ws, 0 ≤ w
  sum : ws.sum = 1
  total : 0 < trackedTotal l
  prob : ∀ id len, l.get? id = some len → choiceProb l.keys ws id = (len : ℝ) / (trackedTotal l : ℝ)
  none : ∀ id, l.get? id = none → choiceProb l.keys ws id = 0

/-- The first numbers that choose a sequence -/
def chooses (l : Dict Int Nat) (ws : List ℝ) (id : Int) : Set ℝ := {u | npChoice l.keys ws u = .ok id}

theorem Fair.chooses {l : Dict Int Nat} {ws : List ℝ} (h : Fair l ws) (id : Int) :
    MeasurableSet (chooses l ws id) ∧ unit (chooses l ws id) = ENNReal.ofReal (amount l id / (trackedTotal l : ℝ)) := by
  obtain ⟨h1, h2⟩ := choice_law h.length h.nonneg h.sum id
  refine ⟨h2, ?_⟩
  unfold UniformRun.chooses
  rw [h1]
  unfold amount
  cases hl : l.get? id with
  | none => rw [h.none id hl]; simp
  | some len => rw [h.prob id len hl]

theorem Fair.stored {l : Dict Int Nat} {ws : List ℝ} (h : Fair l ws) : EjectLaw.stored l = l.keys := by
  unfold EjectLaw.stored
  rw [List.filter_eq_self.2 fun p hp => by simpa using h.pos p hp]
  rfl

/-- The numbers with which the loop answers that, and then something -/
def gives (l : Dict Int Nat) (ws : List ℝ) (K : Set (Gen × Gen)) (count : Int) (acc out : List Int) : Set (Gen × Gen) :=
  {w | ∃ fuel u', ejectLoop l.keys ws l fuel w.1 count acc = .ok (out, u') ∧ (u', w.2) ∈ K}

theorem ejectLoop_succ (ids : List Int) (ws : List ℝ) (idents : Dict Int Nat) (fuel : Nat) (u : Gen) (count : Int) (acc : List Int) :
    ejectLoop ids ws idents (fuel + 1) u count acc = if count ≤ 0 then .ok (acc, u) else
      match npChoice ids ws (u 0) with
      | .error e => .error e
      | .ok id =>
        if id ∈ acc then ejectLoop ids ws idents fuel (rest u) count acc
        else match idents.get? id with
          | none => .error .keyError
          | some len => ejectLoop ids ws idents fuel (rest u) (count - len) (acc ++ [id]) := rfl

theorem measurable_gives {l : Dict Int Nat} {ws : List ℝ} (h : Fair l ws) {K : Set (Gen × Gen)} (hK : MeasurableSet K) (count : Int)
    (acc out : List Int) : MeasurableSet (gives l ws K count acc out) := by
  have hone : ∀ (fuel : Nat) (count : Int) (acc : List Int),
      MeasurableSet {w : Gen × Gen | ∃ u', ejectLoop l.keys ws l fuel w.1 count acc = .ok (out, u') ∧ (u', w.2) ∈ K} := by
    intro fuel
    induction fuel with
    | zero =>
      intro count acc
      unfold ejectLoop
      by_cases hc : count ≤ 0
      · simp only [if_pos hc, Except.ok.injEq, Prod.mk.injEq]
        by_cases ha : acc = out
        · simpa [ha] using hK
        · simp [ha]
      · simp [if_neg hc]
    | succ fuel ih =>
      intro count acc
      by_cases hc : count ≤ 0
      · unfold ejectLoop
        simp only [if_pos hc, Except.ok.injEq, Prod.mk.injEq]
        by_cases ha : acc = out
        · simpa [ha] using hK
        · simp [ha]
      · have hset : {w : Gen × Gen | ∃ u', ejectLoop l.keys ws l (fuel + 1) w.1 count acc = .ok (out, u') ∧ (u', w.2) ∈ K} =
            ⋃ id : Int, {w | w.1 0 ∈ chooses l ws id ∧ (rest w.1, w.2) ∈ (if id ∈ acc then
                {w : Gen × Gen | ∃ u', ejectLoop l.keys ws l fuel w.1 count acc = .ok (out, u') ∧ (u', w.2) ∈ K}
              else match l.get? id with
                | none => ∅
                | some len => {w : Gen × Gen | ∃ u', ejectLoop l.keys ws l fuel w.1 (count - len) (acc ++ [id]) = .ok (out, u') ∧
                    (u', w.2) ∈ K})} := by
          ext w
          simp only [Set.mem_ofPred_eq, Set.mem_iUnion, chooses]
          simp only [ejectLoop_succ, if_neg hc]
          constructor
          · rintro ⟨u', hx, hu⟩
            split at hx
            · simp at hx
            · rename_i id hid
              refine ⟨id, hid, ?_⟩
              split at hx
              · rename_i hm
                rw [if_pos hm]
                exact ⟨u', hx, hu⟩
              · rename_i hm
                rw [if_neg hm]
                split at hx
                · simp at hx
                · exact ⟨u', hx, hu⟩
          · rintro ⟨id, hid, hx⟩
            rw [hid]
            simp only
            split at hx
            · rename_i hm
              rw [if_pos hm]
              exact hx
            · rename_i hm
              rw [if_neg hm]
              split at hx
              · simp at hx
              · exact hx
        rw [hset]
        refine .iUnion fun id => ?_
        have hrest : MeasurableSet (if id ∈ acc then
                {w : Gen × Gen | ∃ u', ejectLoop l.keys ws l fuel w.1 count acc = .ok (out, u') ∧ (u', w.2) ∈ K}
              else match l.get? id with
                | none => ∅
                | some len => {w : Gen × Gen | ∃ u', ejectLoop l.keys ws l fuel w.1 (count - len) (acc ++ [id]) = .ok (out, u') ∧
                    (u', w.2) ∈ K}) := by
          split
          · exact ih count acc
          · split
            · exact .empty
            · exact ih _ _
        exact (Has.firstU (h.chooses id).1 ⟨hrest, rfl⟩).1
  have : gives l ws K count acc out =
      ⋃ fuel, {w : Gen × Gen | ∃ u', ejectLoop l.keys ws l fuel w.1 count acc = .ok (out, u') ∧ (u', w.2) ∈ K} := by
    ext w; simp [gives]
  rw [this]
  exact .iUnion fun fuel => hone fuel count acc

/-- What the loop answers -/
theorem ejectLoop_ok {l : Dict Int Nat} {ws : List ℝ} : ∀ (fuel : Nat) (u : Gen) (count : Int) (acc out : List Int) (u' : Gen),
    ejectLoop l.keys ws l fuel u count acc = .ok (out, u') → ∃ more, out = acc ++ more ∧ (acc.Nodup → out.Nodup) ∧
      (∀ id ∈ more, id ∈ l.keys) ∧ count ≤ lenSum l more ∧ ∀ pre last, more = pre ++ [last] → (lenSum l pre : Int) < count := by
  have hdone : ∀ (u : Gen) (count : Int) (acc out : List Int) (u' : Gen), count ≤ 0 → (Except.ok (acc, u) : Except Err _) = .ok (out, u') →
      ∃ more, out = acc ++ more ∧ (acc.Nodup → out.Nodup) ∧
      (∀ id ∈ more, id ∈ l.keys) ∧ count ≤ lenSum l more ∧ ∀ pre last, more = pre ++ [last] → (lenSum l pre : Int) < count := by
    intro u count acc out u' hc h
    simp only [Except.ok.injEq, Prod.mk.injEq] at h
    obtain ⟨rfl, _⟩ := h
    exact ⟨[], by simp, id, by simp, by simpa using hc, by simp⟩
  intro fuel
  induction fuel with
  | zero =>
    intro u count acc out u' h
    unfold ejectLoop at h
    split at h
    · rename_i hc; exact hdone u count acc out u' hc h
    · simp at h
  | succ fuel ih =>
    intro u count acc out u' h
    unfold ejectLoop at h
    split at h
    · rename_i hc; exact hdone u count acc out u' hc h
    · rename_i hc
      split at h
      · simp at h
      · rename_i id hid
        split at h
        · exact ih _ _ _ _ _ h
        · rename_i hm
          split at h
          · simp at h
          · rename_i len hlen
            obtain ⟨more, h1, h2, h3, h4, h5⟩ := ih _ _ _ _ _ h
            refine ⟨id :: more, by simp [h1], fun hn => h2 ?_, ?_, ?_, ?_⟩
            · rw [List.nodup_append]
              exact ⟨hn, by simp, by rintro a ha b hb rfl; simp at hb; exact hm (hb ▸ ha)⟩
            · intro x hx
              rcases List.mem_cons.1 hx with rfl | hx
              · exact Dict.mem_keys_of_get? hlen
              · exact h3 x hx
            · simp only [lenSum_cons, hlen]; push_cast; omega
            · intro pre last he
              cases pre with
              | nil => simp only [lenSum_nil]; push_cast; omega
              | cons a pre =>
                simp only [List.cons_append, List.cons.injEq] at he
                obtain ⟨rfl, he⟩ := he
                have := h5 pre last he
                simp only [lenSum_cons, hlen]; push_cast; omega

/-- One turn of the loop -/
theorem gives_step {l : Dict Int Nat} {ws : List ℝ} {K : Set (Gen × Gen)} {count : Int} (hc : 0 < count) {acc more : List Int} {a : Int}
    {len : Nat} (ha : a ∉ acc) (hlen : l.get? a = some len) :
    gives l ws K count acc (acc ++ a :: more) =
      {w | w.1 0 ∈ {d | ∃ id ∈ acc, d ∈ chooses l ws id} ∧ (rest w.1, w.2) ∈ gives l ws K count acc (acc ++ a :: more)} ∪
      {w | w.1 0 ∈ chooses l ws a ∧ (rest w.1, w.2) ∈ gives l ws K (count - len) (acc ++ [a]) (acc ++ a :: more)} := by
  ext w
  simp only [gives, Set.mem_union, Set.mem_ofPred_eq]
  constructor
  · rintro ⟨fuel, u', hx, hu⟩
    cases fuel with
    | zero =>
      unfold ejectLoop at hx
      rw [if_neg (by omega)] at hx
      simp at hx
    | succ fuel =>
      unfold ejectLoop at hx
      rw [if_neg (by omega)] at hx
      split at hx
      · simp at hx
      · rename_i id hid
        split at hx
        · rename_i hm
          exact .inl ⟨⟨id, hm, hid⟩, fuel, u', hx, hu⟩
        · split at hx
          · simp at hx
          · rename_i len' hl'
            obtain ⟨more', h1, _⟩ := ejectLoop_ok _ _ _ _ _ _ hx
            rw [List.append_assoc, List.append_cancel_left_eq] at h1
            have : id = a := by simp at h1; exact h1.1.symm
            subst this
            rw [hlen] at hl'
            injection hl' with hl'
            subst hl'
            exact .inr ⟨hid, fuel, u', hx, hu⟩
  · rintro (⟨⟨id, hm, hid⟩, fuel, u', hx, hu⟩ | ⟨hid, fuel, u', hx, hu⟩)
    · refine ⟨fuel + 1, u', ?_, hu⟩
      unfold ejectLoop
      have hid : npChoice l.keys ws (w.1 0) = .ok id := hid
      rw [if_neg (by omega), hid]
      simp only [if_pos hm]
      exact hx
    · refine ⟨fuel + 1, u', ?_, hu⟩
      unfold ejectLoop
      have hid : npChoice l.keys ws (w.1 0) = .ok a := hid
      rw [if_neg (by omega), hid]
      simp only [if_neg ha, hlen]
      exact hx

theorem Fair.chooses_some {l : Dict Int Nat} {ws : List ℝ} (h : Fair l ws) {acc : List Int} (hnd : acc.Nodup) :
    Has {w : Gen × Gen | w.1 0 ∈ {d | ∃ id ∈ acc, d ∈ UniformRun.chooses l ws id}}
      (ENNReal.ofReal ((acc.map (amount l)).sum / (trackedTotal l : ℝ))) ∧
    MeasurableSet {d | ∃ id ∈ acc, d ∈ UniformRun.chooses l ws id} ∧
    unit {d | ∃ id ∈ acc, d ∈ UniformRun.chooses l ws id} = ENNReal.ofReal ((acc.map (amount l)).sum / (trackedTotal l : ℝ)) := by
  have hnn : ∀ id, 0 ≤ amount l id := by intro id; unfold amount; split <;> simp
  have hm : MeasurableSet {d | ∃ id ∈ acc, d ∈ UniformRun.chooses l ws id} ∧
      unit {d | ∃ id ∈ acc, d ∈ UniformRun.chooses l ws id} = ENNReal.ofReal ((acc.map (amount l)).sum / (trackedTotal l : ℝ)) := by
    induction acc with
    | nil => simp
    | cons a acc ih =>
      have hset : {d | ∃ id ∈ a :: acc, d ∈ UniformRun.chooses l ws id} =
          UniformRun.chooses l ws a ∪ {d | ∃ id ∈ acc, d ∈ UniformRun.chooses l ws id} := by
        ext d; simp
      have hdis : Disjoint (UniformRun.chooses l ws a) {d | ∃ id ∈ acc, d ∈ UniformRun.chooses l ws id} := by
        rw [Set.disjoint_left]
        rintro d hd ⟨id, hid, hd'⟩
        have hd : npChoice l.keys ws d = .ok a := hd
        have hd' : npChoice l.keys ws d = .ok id := hd'
        rw [hd] at hd'
        injection hd' with hd'
        exact (List.nodup_cons.1 hnd).1 (hd' ▸ hid)
      obtain ⟨i1, i2⟩ := ih (List.nodup_cons.1 hnd).2
      obtain ⟨c1, c2⟩ := h.chooses a
      rw [hset]
      refine ⟨c1.union i1, ?_⟩
      have hsum : 0 ≤ (acc.map (amount l)).sum := List.sum_nonneg (by
        intro x hx
        obtain ⟨i, _, rfl⟩ := List.mem_map.1 hx
        exact hnn i)
      rw [measure_union hdis i1, c2, i2, ← ENNReal.ofReal_add (div_nonneg (hnn a) (by positivity)) (by positivity), List.map_cons,
        List.sum_cons, add_div]
  refine ⟨?_, hm⟩
  have := (Has.firstU hm.1 (K := Set.univ) ⟨.univ, measure_univ⟩)
  rw [hm.2, mul_one] at this
  exact this.congr (by ext w; simp) rfl

theorem gives_law {l : Dict Int Nat} {ws : List ℝ} (h : Fair l ws) {K : Set (Gen × Gen)} {x : ℝ≥0∞} (hK : Has K x) (more : List Int) :
    ∀ (acc : List Int) (count : Int), (acc ++ more).Nodup → (∀ id ∈ acc ++ more, id ∈ l.keys) →
      count ≤ lenSum l more → (∀ pre last, more = pre ++ [last] → (lenSum l pre : Int) < count) →
      Has (gives l ws K count acc (acc ++ more))
        (ENNReal.ofReal (oneByOne (amount l) ((trackedTotal l : ℝ) - (acc.map (amount l)).sum) more) * x) ∧
      0 ≤ oneByOne (amount l) ((trackedTotal l : ℝ) - (acc.map (amount l)).sum) more := by
  induction more with
  | nil =>
    intro acc count _ _ hc _
    refine ⟨hK.congr ?_ (by simp [oneByOne]), by simp [oneByOne]⟩
    have hc' : count ≤ 0 := by simpa using hc
    ext w
    simp only [gives, Set.mem_ofPred_eq, List.append_nil]
    constructor
    · rintro ⟨fuel, u', hx, hu⟩
      cases fuel <;>
      · unfold ejectLoop at hx
        rw [if_pos hc'] at hx
        simp only [Except.ok.injEq, Prod.mk.injEq, true_and] at hx
        subst hx
        exact hu
    · intro hw
      refine ⟨0, w.1, ?_, hw⟩
      unfold ejectLoop
      rw [if_pos hc']
  | cons a more ih =>
    intro acc count hnd hsub hc hmin
    have hpos : 0 < count := by
      rcases List.eq_nil_or_concat (a :: more) with h | ⟨pre, last, h⟩
      · simp at h
      · have := hmin pre last (by simpa using h)
        omega
    have ha : a ∉ acc := by
      intro h
      exact (List.nodup_append.1 hnd).2.2 a h a (by simp) rfl
    obtain ⟨len, hlen⟩ := Dict.get?_isSome_of_mem (hsub a (by simp))
    have hlpos : 0 < len := h.pos _ (Dict.mem_of_get? hlen)
    have hnd' : (acc ++ [a] ++ more).Nodup := by simpa using hnd
    have hWn : ∀ id, 0 ≤ amount l id := by intro id; unfold amount; split <;> simp
    have hWa : 0 < amount l a := by unfold amount; rw [hlen]; simpa using hlpos
    obtain ⟨hy, hy0⟩ := ih (acc ++ [a]) (count - len) hnd' (by simpa using hsub)
      (by simp only [lenSum_cons, hlen] at hc; push_cast at hc; omega)
      (by
        intro pre last h
        have := hmin (a :: pre) last (by simp [h])
        simp only [lenSum_cons, hlen] at this
        push_cast at this
        omega)
    have hle : (acc.map (amount l)).sum + amount l a ≤ (trackedTotal l : ℝ) := by
      have := EjectLaw.sum_sub_le (l := EjectLaw.stored l) (W := amount l) (fun id _ => hWn id) (acc := acc ++ [a])
        (List.nodup_append.1 hnd').1 (fun id hid => by
          rw [h.stored]
          exact hsub id (by simp only [List.mem_append, List.mem_cons] at hid ⊢; tauto))
      rw [EjectLaw.sum_amount h.nodup] at this
      simpa using this
    have hS : 0 ≤ (acc.map (amount l)).sum := List.sum_nonneg (by
      intro x hx
      obtain ⟨i, hi, rfl⟩ := List.mem_map.1 hx
      exact hWn i)
    have hTpos : (0 : ℝ) < (trackedTotal l : ℝ) := by exact_mod_cast h.total
    obtain ⟨_, hA1, hA2⟩ := h.chooses_some (acc := acc) (List.nodup_append.1 hnd).1
    have hX := measurable_gives h hK.1 count acc (acc ++ a :: more)
    have e1 : acc ++ a :: more = acc ++ [a] ++ more := by simp
    have e2 : (trackedTotal l : ℝ) - ((acc ++ [a]).map (amount l)).sum = (trackedTotal l : ℝ) - (acc.map (amount l)).sum - amount l a := by
      simp; ring
    rw [e2] at hy hy0
    have hYa := (hy.congr (congrArg _ e1) rfl).firstU (h.chooses a).1
    have hXa := Has.firstU hA1 ⟨hX, rfl⟩
    have hx := congrArg generators (gives_step (l := l) (ws := ws) (K := K) hpos (more := more) ha hlen)
    rw [measure_union ?_ hYa.1, hXa.2, hYa.2, hA2, (h.chooses a).2] at hx
    · have hfin : generators (gives l ws K count acc (acc ++ a :: more)) ≠ ⊤ := measure_ne_top _ _
      have hxfin : x ≠ ⊤ := by rw [← hK.2]; exact measure_ne_top _ _
      have hr := congrArg ENNReal.toReal hx
      rw [ENNReal.toReal_add (ENNReal.mul_ne_top ENNReal.ofReal_ne_top hfin)
        (ENNReal.mul_ne_top ENNReal.ofReal_ne_top (ENNReal.mul_ne_top ENNReal.ofReal_ne_top hxfin)), ENNReal.toReal_mul, ENNReal.toReal_mul,
        ENNReal.toReal_mul, ENNReal.toReal_ofReal (by positivity), ENNReal.toReal_ofReal (by positivity), ENNReal.toReal_ofReal hy0] at hr
      have hne : (0 : ℝ) < (trackedTotal l : ℝ) - (acc.map (amount l)).sum := by linarith
      have hval : (generators (gives l ws K count acc (acc ++ a :: more))).toReal =
          oneByOne (amount l) ((trackedTotal l : ℝ) - (acc.map (amount l)).sum) (a :: more) * x.toReal := by
        rw [oneByOne]
        have := hne.ne'
        field_simp at hr ⊢
        linarith
      have hnn : 0 ≤ oneByOne (amount l) ((trackedTotal l : ℝ) - (acc.map (amount l)).sum) (a :: more) := by
        rw [oneByOne]
        positivity
      refine ⟨⟨hX, ?_⟩, hnn⟩
      rw [← ENNReal.ofReal_toReal hfin, hval, ENNReal.ofReal_mul hnn, ENNReal.ofReal_toReal hxfin]
    · rw [Set.disjoint_left]
      rintro w ⟨⟨id, hid, h1⟩, _⟩ ⟨h2, _⟩
      have h1 : npChoice l.keys ws (w.1 0) = .ok id := h1
      have h2 : npChoice l.keys ws (w.1 0) = .ok a := h2
      rw [h1] at h2
      injection h2 with h2
      exact ha (h2 ▸ hid)

theorem ejectLoop_frees {l : Dict Int Nat} {ws : List ℝ} (h : Fair l ws) {fuel : Nat} {u u' : Gen} {count : Int} {out : List Int}
    (hx : ejectLoop l.keys ws l fuel u count [] = .ok (out, u')) : Frees l count out := by
  have hlen : ∀ pre : List Int, pre.Nodup → pickedTotal l pre = lenSum l pre := fun pre hp => pickedTotal_eq h.nodup hp
  obtain ⟨more, h1, h2, h3, h4, h5⟩ := ejectLoop_ok _ _ _ _ _ _ hx
  rw [List.nil_append] at h1
  subst h1
  have hnd := h2 (by simp)
  refine ⟨hnd, fun id hid => ?_, by rw [hlen _ hnd]; exact h4, fun pre last he => ?_⟩
  · obtain ⟨p, hp, rfl⟩ := List.mem_map.1 (h3 id hid)
    exact ⟨p.2, hp⟩
  · rw [hlen pre (List.nodup_append.1 (he ▸ hnd)).1]
    exact h5 pre last he

/-- Ejection, and then something -/
theorem eject_law {l : Dict Int Nat} {ws : List ℝ} (h : Fair l ws) {K : Set (Gen × Gen)} {x : ℝ≥0∞} (hK : Has K x) (count : Int)
    (out : List Int) : Has (gives l ws K count [] out) (ejectLaw l count out * x) := by
  have hlen : ∀ pre : List Int, pre.Nodup → pickedTotal l pre = lenSum l pre := fun pre hp => pickedTotal_eq h.nodup hp
  unfold ejectLaw
  by_cases hf : Frees l count out
  · rw [if_pos hf]
    have := (gives_law h hK out [] count (by simpa using hf.distinct)
      (fun id hid => by
        obtain ⟨n, hn⟩ := hf.tracked id (by simpa using hid)
        exact List.mem_map.2 ⟨_, hn, rfl⟩)
      (by rw [← hlen _ hf.distinct]; exact hf.enough)
      (by
        intro pre last he
        rw [← hlen pre (List.nodup_append.1 (he ▸ hf.distinct)).1]
        exact hf.needed pre last he)).1
    simpa using this
  · rw [if_neg hf, zero_mul]
    refine Has.empty.congr ?_ rfl
    ext w
    simp only [gives, Set.mem_ofPred_eq, Set.mem_empty_iff_false, iff_false]
    rintro ⟨fuel, u', hx, _⟩
    exact hf (ejectLoop_frees h hx)

/-! ### Windows -/

theorem fair {l : Dict Int Nat} {s' : Uniform} (hn : l.keys.Nodup) (hfit : ∀ id ∈ l.keys, -2 ^ 63 ≤ id ∧ id < 2 ^ 63)
    (hpos : ∀ p ∈ l, 0 < p.2) (htot : 0 < trackedTotal l) (hp : s'.prios = l.values) : Fair l s'.weights := by
  obtain ⟨s0, s0', h0, hr0, _⟩ := RowMean.exists_tracked hn hfit
  obtain ⟨_, a1, a2, _⟩ := Strategy.refresh_uniform h0.tracks.1 hr0
  obtain ⟨h1, h2, h3, h4, h5⟩ := C17_weights h0 hr0 htot
  have hw : s'.weights = s0'.weights := by unfold Uniform.weights; rw [hp, a2]
  rw [a1] at h1 h4 h5
  rw [hw]
  exact ⟨hn, hpos, h1.symm, h2, h3, htot, h4, h5⟩

theorem window_law {l : Dict Int Nat} {ws : List ℝ} (h : Fair l ws) {tc : Nat} (hlong : ∀ p ∈ l, tc ≤ p.2) (p : SamplePoint) :
    unit (chooses l ws p.1) * unit (offsets l tc p) = ENNReal.ofReal (windowLaw l tc p) := by
  rw [(h.chooses p.1).2]
  unfold offsets windowLaw amount
  cases hl : l.get? p.1 with
  | none => simp
  | some len =>
    simp only [Option.some.injEq, exists_eq_left']
    by_cases he : p.2.2 = p.2.1 + tc
    · simp only [he, and_true]
      obtain ⟨o1, o2⟩ := offset_law ((len : Int) - ((tc : Int) - 1)) p.2.1
      rw [o1, ← ENNReal.ofReal_mul (by positivity)]
      have hle := hlong _ (Dict.mem_of_get? hl)
      simp only at hle
      have hx : (len : Int) - ((tc : Int) - 1) = ((len - tc + 1 : ℕ) : Int) := by omega
      rw [hx]
      split
      · rw [offsetProb_in (by omega) (by omega) (by omega)]
        push_cast; rfl
      · rw [offsetProb_out (by omega) (by omega), mul_zero]
    · simp [he]

theorem points_ids {l : Dict Int Nat} {tc : Int} : ∀ (chosen : List Int) (v : Gen) (pts : List SamplePoint) (v' : Gen),
    points l tc chosen v = .ok (pts, v') → pts.map Prod.fst = chosen := by
  intro chosen
  induction chosen with
  | nil => intro v pts v' h; simp only [points, Except.ok.injEq, Prod.mk.injEq] at h; simp [← h.1]
  | cons c chosen ih =>
    intro v pts v' h
    unfold points at h
    split at h
    · simp at h
    · split at h
      · simp at h
      · rename_i pts1 v1 h1
        simp only [Except.ok.injEq, Prod.mk.injEq] at h
        rw [← h.1]
        simp [ih _ _ _ h1]

/-- A batch, and then something -/
theorem batch_law {l : Dict Int Nat} {ws : List ℝ} (h : Fair l ws) {tc : Nat} (hlong : ∀ p ∈ l, tc ≤ p.2) {K : Set (Gen × Gen)}
    {x : ℝ≥0∞} (hK : Has K x) (count : Nat) (b : List SamplePoint) :
    Has {w | ∃ chosen u' v', choices l.keys ws count w.1 = .ok (chosen, u') ∧ points l tc chosen w.2 = .ok (b, v') ∧ (u', v') ∈ K}
      ((if b.length = count then (b.map fun p => ENNReal.ofReal (windowLaw l tc p)).prod else 0) * x) := by
  refine (choices_law h.length h.nonneg h.sum (points_law l tc hK b (b.map Prod.fst)) count (b.map Prod.fst)).congr ?_ ?_
  · ext w
    simp only [Set.mem_ofPred_eq]
    constructor
    · rintro ⟨chosen, u', v', h1, h2, h3⟩
      have := points_ids _ _ _ _ h2
      subst this
      exact ⟨u', h1, v', h2, h3⟩
    · rintro ⟨u', h1, v', h2, h3⟩
      exact ⟨_, u', v', h1, h2, h3⟩
  · rw [List.length_map, if_pos rfl, List.map_map, ← mul_assoc]
    congr 1
    split
    · rw [← List.prod_map_mul]
      congr 1
      refine List.map_congr_left fun p _ => ?_
      exact (window_law h hlong p).symm
    · simp

theorem npChoice_ok {l : Dict Int Nat} {ws : List ℝ} (h : Fair l ws) {u : ℝ} (hu : 0 ≤ u ∧ u < 1) :
    ∃ id len, npChoice l.keys ws u = .ok id ∧ l.get? id = some len := by
  obtain ⟨id, hid⟩ := RealDraws.pick_some l.keys ws 0 u h.length h.nonneg (by rw [h.sum]; linarith [hu.2]) hu.1
  have hp := RealDraws.pick_pos id l.keys ws 0 u h.length h.nonneg hu.1 hid
  cases hl : l.get? id with
  | none => rw [h.none id hl] at hp; exact absurd hp (lt_irrefl _)
  | some len =>
    refine ⟨id, len, ?_, hl⟩
    unfold npChoice
    rw [if_neg (by simpa using h.length), if_neg (by
      rintro (⟨w, ha, hb⟩ | hb)
      · exact absurd hb (not_lt.2 (h.nonneg w ha))
      · exact hb h.sum), hid]

theorem sum_amount_eq (l : Dict Int Nat) (ids : List Int) : (ids.map (amount l)).sum = (lenSum l ids : ℝ) := by
  induction ids with
  | nil => simp
  | cons a ids ih =>
    rw [List.map_cons, List.sum_cons, ih, lenSum_cons]
    unfold amount
    cases l.get? a <;> simp

/-- Ejection comes to an end. -/
theorem ends {l : Dict Int Nat} {ws : List ℝ} (h : Fair l ws) : ∀ (n : Nat) (acc : List Int) (count : Int), count ≤ n →
    acc.Nodup → count + lenSum l acc ≤ trackedTotal l →
    generators {w | ¬ ∃ out, w ∈ gives l ws Set.univ count acc out} = 0 := by
  intro n
  induction n with
  | zero =>
    intro acc count hc _ _
    have : {w : Gen × Gen | ¬ ∃ out, w ∈ gives l ws Set.univ count acc out} = ∅ := by
      ext w
      simp only [Set.mem_ofPred_eq, Set.mem_empty_iff_false, iff_false, not_not]
      refine ⟨acc, 0, w.1, ?_, trivial⟩
      unfold ejectLoop
      rw [if_pos (by simpa using hc)]
    rw [this, measure_empty]
  | succ n ih =>
    intro acc count hn hnd hc
    by_cases hpos : count ≤ 0
    · have : {w : Gen × Gen | ¬ ∃ out, w ∈ gives l ws Set.univ count acc out} = ∅ := by
        ext w
        simp only [Set.mem_ofPred_eq, Set.mem_empty_iff_false, iff_false, not_not]
        refine ⟨acc, 0, w.1, ?_, trivial⟩
        unfold ejectLoop
        rw [if_pos hpos]
      rw [this, measure_empty]
    · have hS : ∀ count acc, MeasurableSet {w : Gen × Gen | ¬ ∃ out, w ∈ gives l ws Set.univ count acc out} := by
        intro count acc
        have : {w : Gen × Gen | ¬ ∃ out, w ∈ gives l ws Set.univ count acc out} = (⋃ out, gives l ws Set.univ count acc out)ᶜ := by
          ext w; simp
        rw [this]
        exact (MeasurableSet.iUnion fun out => measurable_gives h .univ count acc out).compl
      obtain ⟨_, hA1, hA2⟩ := h.chooses_some hnd
      have hsub : {w : Gen × Gen | ¬ ∃ out, w ∈ gives l ws Set.univ count acc out} ⊆
          {w | w.1 0 ∈ {d | ∃ id ∈ acc, d ∈ chooses l ws id} ∧
            (rest w.1, w.2) ∈ {w : Gen × Gen | ¬ ∃ out, w ∈ gives l ws Set.univ count acc out}} ∪
          ((⋃ id : Int, ⋃ len : Nat, {w | w.1 0 ∈ chooses l ws id ∧ (rest w.1, w.2) ∈ (if id ∉ acc ∧ l.get? id = some len then
            {w : Gen × Gen | ¬ ∃ out, w ∈ gives l ws Set.univ (count - len) (acc ++ [id]) out} else ∅)}) ∪
          {w | w.1 0 ∈ (Set.Ico (0 : ℝ) 1)ᶜ ∧ (rest w.1, w.2) ∈ Set.univ}) := by
        intro w hw
        by_cases hu : w.1 0 ∈ Set.Ico (0 : ℝ) 1
        · obtain ⟨id, len, hid, hlen⟩ := npChoice_ok h hu
          by_cases hm : id ∈ acc
          · refine .inl ⟨⟨id, hm, hid⟩, ?_⟩
            rintro ⟨out, fuel, u', hx, _⟩
            refine hw ⟨out, fuel + 1, u', ?_, trivial⟩
            rw [ejectLoop_succ, if_neg hpos, hid]
            simp only [if_pos hm]
            exact hx
          · refine .inr (.inl (Set.mem_iUnion.2 ⟨id, Set.mem_iUnion.2 ⟨len, hid, ?_⟩⟩))
            rw [if_pos ⟨hm, hlen⟩]
            rintro ⟨out, fuel, u', hx, _⟩
            refine hw ⟨out, fuel + 1, u', ?_, trivial⟩
            rw [ejectLoop_succ, if_neg hpos, hid]
            simp only [if_neg hm, hlen]
            exact hx
        · exact .inr (.inr ⟨hu, trivial⟩)
      have hle := (measure_mono (μ := generators) hsub).trans ((measure_union_le _ _).trans (add_le_add_right (measure_union_le _ _) _))
      have hunit : generators {w : Gen × Gen | w.1 0 ∈ (Set.Ico (0 : ℝ) 1)ᶜ ∧ (rest w.1, w.2) ∈ Set.univ} = 0 := by
        rw [(Has.firstU (measurableSet_Ico.compl) (K := Set.univ) ⟨.univ, rfl⟩).2]
        simp [RealDraws.unit]
      have hnew : generators (⋃ id : Int, ⋃ len : Nat, {w : Gen × Gen | w.1 0 ∈ chooses l ws id ∧
          (rest w.1, w.2) ∈ (if id ∉ acc ∧ l.get? id = some len then
            {w : Gen × Gen | ¬ ∃ out, w ∈ gives l ws Set.univ (count - len) (acc ++ [id]) out} else ∅)}) = 0 := by
        refine measure_iUnion_null fun id => measure_iUnion_null fun len => ?_
        by_cases hcond : id ∉ acc ∧ l.get? id = some len
        · simp only [if_pos hcond]
          have hlpos : 0 < len := h.pos _ (Dict.mem_of_get? hcond.2)
          rw [(Has.firstU (h.chooses id).1 ⟨hS _ _, rfl⟩).2, ih (acc ++ [id]) (count - len) (by push_cast at hn; omega) ?_ ?_, mul_zero]
          · rw [List.nodup_append]
            exact ⟨hnd, by simp, by rintro a ha b hb rfl; simp at hb; exact hcond.1 (hb ▸ ha)⟩
          · rw [lenSum_append, lenSum_cons, lenSum_nil, hcond.2]
            push_cast; omega
        · simp [if_neg hcond]
      rw [hunit, hnew, (Has.firstU hA1 ⟨hS _ _, rfl⟩).2, hA2, add_zero, add_zero, sum_amount_eq] at hle
      by_contra hne
      have hlt : ENNReal.ofReal ((lenSum l acc : ℝ) / (trackedTotal l : ℝ)) < 1 := by
        rw [ENNReal.ofReal_lt_one, div_lt_one (by exact_mod_cast h.total)]
        have : lenSum l acc < trackedTotal l := by omega
        exact_mod_cast this
      have := ENNReal.mul_lt_mul_left hne (measure_ne_top generators _) hlt
      rw [one_mul] at this
      exact absurd hle (not_le.2 this)

/-! ### The table -/

/-- How the table is at some time -/
structure St (t0 : Table V) (tc : Nat) (t : Table V) (q : List (Entry V)) (used : List Int) : Prop where
  inv : Inv t q
  config : SameConfig t0 t
  sampler : t.sampler.kind = 1
  ejector : t.ejector.kind = 1
  long : ∀ e ∈ q, tc ≤ e.len ∧ 0 < e.len
  room : (Spec.total q : Int) ≤ t0.maxlen
  known : ∀ e ∈ q, e.id ∈ used
  fit : ∀ e ∈ q, 0 ≤ e.id ∧ e.id < 2 ^ 63
  any : used ≠ [] → q ≠ []

theorem kind_uniform {s : Strategy} (h : s.kind = 1) : ∃ s', s = .uniform s' := by
  cases s with
  | uniform s => exact ⟨s, rfl⟩
  | fifo _ => simp [Strategy.kind] at h
  | coverage _ => simp [Strategy.kind] at h

theorem trackedTotal_lensOf (q : List (Entry V)) : trackedTotal (lensOf q) = Spec.total q := by
  simp [trackedTotal, lensOf, Spec.total, Function.comp_def]

theorem St.fair {t0 t : Table V} {tc : Nat} {q : List (Entry V)} {used : List Int} (h : St t0 tc t q used) (hne : q ≠ [])
    {s' : Uniform} (hp : s'.prios = (lensOf q).values) : Fair (lensOf q) s'.weights := by
  refine UniformRun.fair (by simpa using h.inv.nodup) ?_ ?_ ?_ hp
  · intro id hid
    rw [keys_lensOf] at hid
    obtain ⟨e, he, rfl⟩ := List.mem_map.1 hid
    have := h.fit e he
    omega
  · intro p hp
    obtain ⟨e, he, rfl⟩ := List.mem_map.1 hp
    exact (h.long e he).2
  · rw [trackedTotal_lensOf]
    obtain ⟨e, q', rfl⟩ := List.exists_cons_of_ne_nil hne
    have := (h.long e (by simp)).2
    rw [total_cons]; omega

theorem St.refresh {t0 t : Table V} {tc : Nat} {q : List (Entry V)} {used : List Int} (h : St t0 tc t q used) {s : Uniform}
    (hs : (Strategy.uniform s).Tracks (lensOf q)) : ∃ s', s.refresh = (s', .ok ()) ∧ (Strategy.uniform s').Tracks (lensOf q) ∧
      s'.ids = (lensOf q).keys ∧ s'.prios = (lensOf q).values ∧ s'.idents = lensOf q := by
  obtain ⟨s', hr⟩ := RowMean.refresh_ok hs (by
    intro id hid
    rw [keys_lensOf] at hid
    obtain ⟨e, he, rfl⟩ := List.mem_map.1 hid
    have := h.fit e he
    omega)
  obtain ⟨h1, h2, h3, h4⟩ := Strategy.refresh_uniform hs hr
  exact ⟨s', hr, h1, h2, h3, h4⟩

/-- A batch -/
theorem St.batch {t0 t : Table V} {tc : Nat} {q : List (Entry V)} {used : List Int} (h : St t0 tc t q used) (hne : q ≠ []) :
    ∃ ws t1, Fair (lensOf q) ws ∧ St t0 tc t1 q used ∧ ∀ (count : Nat) (u v : Gen),
      (∀ t' pts u' v', Verif.UniformRun.batch count tc t u v = .ok (t', pts, u', v') ↔ t' = t1 ∧
        ∃ chosen, choices (lensOf q).keys ws count u = .ok (chosen, u') ∧ points (lensOf q) tc chosen v = .ok (pts, v')) := by
  obtain ⟨s, hs⟩ := kind_uniform h.sampler
  obtain ⟨s', hr, h1, h2, h3, h4⟩ := h.refresh (hs ▸ h.inv.sampler)
  refine ⟨s'.weights, { t with sampler := .uniform s' }, h.fair hne h3, ?_, fun count u v t' pts u' v' => ?_⟩
  · obtain ⟨i1, i2, i3, i4, i5, i6, i7, i8⟩ := h.inv
    exact ⟨⟨i1, i2, i3, i4, i5, i6, h1, i8⟩, ⟨h.config.1, h.config.2, h.config.3, by
      rw [← h.config.4, h.sampler]; rfl, h.config.5⟩, rfl, h.ejector, h.long, h.room, h.known, h.fit, h.any⟩
  · unfold Verif.UniformRun.batch
    rw [hs]
    simp only [hr, h2, h4]
    constructor
    · intro hx
      split at hx
      · simp at hx
      · rename_i chosen u1 h1
        split at hx
        · simp at hx
        · rename_i pts1 v1 hp1
          simp only [Except.ok.injEq, Prod.mk.injEq] at hx
          obtain ⟨rfl, rfl, rfl, rfl⟩ := hx
          exact ⟨rfl, chosen, h1, hp1⟩
    · rintro ⟨rfl, chosen, k1, k2⟩
      rw [k1]
      simp only [k2]

theorem store_ok {t0 t : Table V} {tc : Nat} {q : List (Entry V)} {used : List Int} {id : Int} {seq : Seqn V} {len : Nat}
    (h : Inv t q) (hc : SameConfig t0 t) (hs1 : t.sampler.kind = 1) (hs2 : t.ejector.kind = 1) (hlong : ∀ e ∈ q, tc ≤ e.len ∧ 0 < e.len)
    (hused : ∀ e ∈ q, e.id ∈ used) (hfit : ∀ e ∈ q, 0 ≤ e.id ∧ e.id < 2 ^ 63)
    (hroom : (Spec.total q : Int) + len ≤ t0.maxlen) (hs : SeqOk t0 seq) (hid : 0 ≤ id ∧ id < 2 ^ 63) (hnew : id ∉ used)
    (hl : tc ≤ len ∧ 0 < len) :
    ∃ t1, store (Table.wrapId id) len seq t = (t1, .ok ()) ∧ St t0 tc t1 (q ++ [entryOf id len seq]) (id :: used) := by
  have hw : Table.wrapId id = id := by unfold Table.wrapId; rw [if_neg (by omega)]
  have hn : id ∉ q.map Entry.id := by
    intro hm
    obtain ⟨e, he, rfl⟩ := List.mem_map.1 hm
    exact hnew (hused e he)
  obtain ⟨t1, k1, k2, k3, k4⟩ := append_ok (id := id) (len := len) h
    (seq := seq) ⟨hs.names, by rw [hc.columns]; exact hs.known, by rw [hc.columns]; exact hs.complete⟩ hn
  rw [hw]
  refine ⟨t1, k1, k2, hc.trans k3, k3.4.trans hs1, k3.5.trans hs2, ?_, ?_, ?_, ?_, by simp⟩
  · intro e he
    rcases List.mem_append.1 he with he | he
    · exact hlong e he
    · rw [List.mem_singleton.1 he]; exact hl
  · rw [total_append, total_cons, total_nil]
    simp only [entryOf]
    push_cast; omega
  · intro e he
    rcases List.mem_append.1 he with he | he
    · exact List.mem_cons_of_mem _ (hused e he)
    · rw [List.mem_singleton.1 he]; simp [entryOf]
  · intro e he
    rcases List.mem_append.1 he with he | he
    · exact hfit e he
    · rw [List.mem_singleton.1 he]; exact hid

/-- Adding when there is room -/
theorem St.add_fits {t0 t : Table V} {tc : Nat} {q : List (Entry V)} {used : List Int} (h : St t0 tc t q used) {id : Int} {seq : Seqn V}
    {rows : List V} (hs : SeqOk t0 seq) (hid : 0 ≤ id ∧ id < 2 ^ 63) (hnew : id ∉ used) (hrows : seq.get? t0.lengthKey = some rows)
    (hl : tc ≤ rows.length ∧ 0 < rows.length) (hroom : (Spec.total q : Int) + rows.length ≤ t0.maxlen) :
    ∃ t1, St t0 tc t1 (q ++ [entryOf id rows.length seq]) (id :: used) ∧ ∀ fuel u, add fuel id seq t u = .ok (t1, [], u) := by
  obtain ⟨t1, k1, k2⟩ := store_ok h.inv h.config h.sampler h.ejector h.long h.known h.fit hroom hs hid hnew hl
  refine ⟨t1, k2, fun fuel u => ?_⟩
  unfold add
  rw [h.config.lengthKey, hrows, h.config.maxlen, h.inv.total]
  simp only
  rw [if_neg (by omega)]
  simp only [k1]

/-- Adding when there is no room -/
theorem St.add_ejects {t0 t : Table V} {tc : Nat} {q : List (Entry V)} {used : List Int} (h : St t0 tc t q used) {id : Int} {seq : Seqn V}
    {rows : List V} (hs : SeqOk t0 seq) (hid : 0 ≤ id ∧ id < 2 ^ 63) (hnew : id ∉ used) (hrows : seq.get? t0.lengthKey = some rows)
    (hl : tc ≤ rows.length ∧ 0 < rows.length) (hmax : (rows.length : Int) ≤ t0.maxlen)
    (hroom : t0.maxlen < (Spec.total q : Int) + rows.length) :
    ∃ ws, ∃ after : List Int → Table V, Fair (lensOf q) ws ∧
      (∀ ids, Frees (lensOf q) ((Spec.total q : Int) + rows.length - t0.maxlen) ids →
        St t0 tc (after ids) (q.filter (fun e => e.id ∉ ids) ++ [entryOf id rows.length seq]) (id :: used)) ∧
      ∀ fuel u t' ids u', add fuel id seq t u = .ok (t', ids, u') ↔ t' = after ids ∧
        ejectLoop (lensOf q).keys ws (lensOf q) fuel u ((Spec.total q : Int) + rows.length - t0.maxlen) [] = .ok (ids, u') := by
  have hne : q ≠ [] := by
    rintro rfl
    rw [total_nil] at hroom
    push_cast at hroom
    omega
  obtain ⟨s, hse⟩ := kind_uniform h.ejector
  obtain ⟨s', hr, h1, h2, h3, h4⟩ := h.refresh (hse ▸ h.inv.ejector)
  have hf := h.fair hne h3
  let t2 : Table V := { t with filled := true, ejector := .uniform s' }
  have hi : Inv t2 q := by
    obtain ⟨i1, i2, i3, i4, i5, i6, i7, i8⟩ := h.inv
    exact ⟨i1, i2, i3, i4, i5, i6, i7, h1⟩
  let gone : List Int → Table V := fun ids => (Res.forEach ids Table.ejectOne t2).1
  have hgone : ∀ ids, Frees (lensOf q) ((Spec.total q : Int) + rows.length - t0.maxlen) ids →
      Res.forEach ids Table.ejectOne t2 = (gone ids, .ok ()) ∧ ∃ t1, store (Table.wrapId id) rows.length seq (gone ids) = (t1, .ok ()) ∧
      St t0 tc t1 (q.filter (fun e => e.id ∉ ids) ++ [entryOf id rows.length seq]) (id :: used) := by
    intro ids hids
    obtain ⟨t3, g1, g2, g3, g4, g5⟩ := ejectAll_ok hi hids.distinct (fun id hid => by
      obtain ⟨n, hn⟩ := hids.tracked id hid
      rw [← keys_lensOf]
      exact List.mem_map.2 ⟨_, hn, rfl⟩)
    have hg : gone ids = t3 := congrArg Prod.fst g1
    rw [hg]
    refine ⟨g1, ?_⟩
    have henough := hids.enough
    rw [pickedTotal_eq hf.nodup hids.distinct] at henough
    exact store_ok g2 ⟨g3.1.trans h.config.1, g3.2.trans h.config.2, g3.3.trans h.config.3, g3.4.trans h.config.4, by
        rw [g3.5, ← h.config.5, h.ejector]; rfl⟩ (g3.4.trans h.sampler) g3.5
      (fun e he => h.long e (List.mem_filter.1 he).1) (fun e he => h.known e (List.mem_filter.1 he).1)
      (fun e he => h.fit e (List.mem_filter.1 he).1) (by omega) hs hid hnew hl
  refine ⟨s'.weights, fun ids => (store (Table.wrapId id) rows.length seq (gone ids)).1, hf, fun ids hids => ?_,
    fun fuel u t' ids u' => ?_⟩
  · obtain ⟨_, t1, k1, k2⟩ := hgone ids hids
    simp only [k1]; exact k2
  · have hfree : ∀ ids u', ejectLoop (lensOf q).keys s'.weights (lensOf q) fuel u
        ((Spec.total q : Int) + rows.length - t0.maxlen) [] = .ok (ids, u') →
        Frees (lensOf q) ((Spec.total q : Int) + rows.length - t0.maxlen) ids := fun ids u' hx => ejectLoop_frees hf hx
    have hrows' : seq.get? t.lengthKey = some rows := by rw [h.config.lengthKey]; exact hrows
    have hC : t.total + rows.length - t.maxlen = (Spec.total q : Int) + rows.length - t0.maxlen := by
      rw [h.config.maxlen, h.inv.total]
    unfold add eject
    rw [hrows']
    simp only
    rw [if_pos (by omega), hC, hse]
    simp only [hr, h2, h4]
    constructor
    · intro hx
      split at hx
      · simp at hx
      · rename_i t3 ids3 u3 h3
        split at h3
        · simp at h3
        · rename_i ids4 u4 h4
          obtain ⟨k1, t1, k2, k3⟩ := hgone _ (hfree _ _ h4)
          rw [show ({ t with filled := true, ejector := .uniform s' } : Table V) = t2 from rfl, k1] at h3
          simp only [Except.ok.injEq, Prod.mk.injEq] at h3
          obtain ⟨rfl, rfl, rfl⟩ := h3
          rw [k2] at hx
          simp only [Except.ok.injEq, Prod.mk.injEq] at hx
          obtain ⟨rfl, rfl, rfl⟩ := hx
          exact ⟨by simp only [k2], h4⟩
    · rintro ⟨rfl, hx⟩
      obtain ⟨k1, t1, k2, k3⟩ := hgone _ (hfree _ _ hx)
      rw [hx]
      simp only
      rw [show ({ t with filled := true, ejector := .uniform s' } : Table V) = t2 from rfl, k1]
      simp only [k2]

/-! ### How often an ejection may draw does not matter -/

theorem ejectLoop_mono {ids : List Int} {ws : List ℝ} {idents : Dict Int Nat} : ∀ (fuel more : Nat) (u : Gen) (count : Int)
    (acc : List Int) (x : List Int × Gen), ejectLoop ids ws idents fuel u count acc = .ok x →
    ejectLoop ids ws idents (fuel + more) u count acc = .ok x := by
  intro fuel
  induction fuel with
  | zero =>
    intro more u count acc x h
    unfold ejectLoop at h
    split at h
    · rename_i hc
      cases more <;>
      · unfold ejectLoop
        rw [if_pos hc]
        exact h
    · simp at h
  | succ fuel ih =>
    intro more u count acc x h
    rw [Nat.succ_add, ejectLoop_succ]
    rw [ejectLoop_succ] at h
    split at h
    · rename_i hc; rw [if_pos hc]; exact h
    · rename_i hc
      rw [if_neg hc]
      split at h
      · simp at h
      · rename_i id hid
        split at h
        · rename_i hm; rw [if_pos hm]; exact ih _ _ _ _ _ h
        · rename_i hm
          rw [if_neg hm]
          split at h
          · simp at h
          · rename_i len hlen
            exact ih _ _ _ _ _ h

theorem eject_mono {fuel : Nat} (more : Nat) {count : Int} {t : Table V} {u : Gen} {x : Table V × List Int × Gen}
    (h : eject fuel count t u = .ok x) : eject (fuel + more) count t u = .ok x := by
  unfold eject at h ⊢
  split at h
  · rename_i he
    split at h
    · simp at h
    · rename_i hr
      split at h
      · simp at h
      · rename_i hx
        rw [ejectLoop_mono _ more _ _ _ _ hx]
        exact h
  · simp at h

theorem add_mono {fuel : Nat} (more : Nat) {id : Int} {seq : Seqn V} {t : Table V} {u : Gen} {x : Table V × List Int × Gen}
    (h : add fuel id seq t u = .ok x) : add (fuel + more) id seq t u = .ok x := by
  unfold add at h ⊢
  split at h
  · simp at h
  · rename_i hrows
    split at h
    · simp at h
    · rename_i t1 ids u1 hx
      split at hx
      · rename_i hb
        rw [if_pos hb, eject_mono more hx]
        exact h
      · rename_i hb
        rw [if_neg hb, hx]
        exact h

theorem run_mono {tc : Int} (more : Nat) {fuel : Nat} : ∀ (es : List (Event V)) (t : Table V) (u v : Gen) (x : List Outcome × Table V),
    run fuel tc es t u v = .ok x → run (fuel + more) tc es t u v = .ok x := by
  intro es
  induction es with
  | nil => intro t u v x h; exact h
  | cons e es ih =>
    intro t u v x h
    cases e with
    | add id seq =>
      unfold run at h ⊢
      split at h
      · simp at h
      · rename_i hx
        rw [add_mono more hx]
        simp only
        split at h
        · simp at h
        · rename_i hy
          rw [ih _ _ _ _ hy]
          exact h
    | batch count =>
      unfold run at h ⊢
      split at h
      · simp at h
      · rename_i hx
        split at h
        · simp at h
        · rename_i hy
          rw [ih _ _ _ _ hy]
          exact h

/-! ### Histories -/

/-- The numbers with which that happens -/
def happens (tc : Nat) (es : List (Event V)) (t : Table V) (out : List Outcome) : Set (Gen × Gen) :=
  {w | ∃ fuel t', run fuel tc es t w.1 w.2 = .ok (out, t')}

theorem rowsOf_eq {seq : Seqn V} {lk : String} {rows : List V} (h : seq.get? lk = some rows) : rowsOf seq lk = rows := by
  simp [rowsOf, h]

theorem replaced_lensOf (q : List (Entry V)) (ids : List Int) (id : Int) (len : Nat) (seq : Seqn V) :
    lensOf (q.filter (fun e => e.id ∉ ids) ++ [entryOf id len seq]) = replaced (lensOf q) ids id len := by
  simp only [lensOf_append, replaced]
  congr 1
  simp only [lensOf, List.filter_map]
  rfl

theorem replaced_none (q : List (Entry V)) (id : Int) (len : Nat) (seq : Seqn V) :
    lensOf (q ++ [entryOf id len seq]) = replaced (lensOf q) [] id len := by
  rw [← replaced_lensOf, filter_nil_ids]

theorem ejectLaw_nothing (l : Dict Int Nat) {count : Int} (hc : count ≤ 0) (ids : List Int) :
    ejectLaw l count ids = if ids = [] then 1 else 0 := by
  unfold ejectLaw
  by_cases h : ids = []
  · subst h
    rw [if_pos ⟨by simp, by simp, by simpa [pickedTotal] using hc, by simp⟩, if_pos rfl]
    simp [oneByOne]
  · rw [if_neg h, if_neg]
    intro hf
    rcases List.eq_nil_or_concat ids with h' | ⟨pre, last, h'⟩
    · exact h h'
    · have := hf.needed pre last (by simpa using h')
      omega

theorem run_add {fuel : Nat} {tc : Int} {id : Int} {seq : Seqn V} {es : List (Event V)} {t : Table V} {u v : Gen} {out : List Outcome}
    {t' : Table V} : run fuel tc (.add id seq :: es) t u v = .ok (out, t') ↔
      ∃ t1 ids u1 out1, out = .added ids :: out1 ∧ add fuel id seq t u = .ok (t1, ids, u1) ∧ run fuel tc es t1 u1 v = .ok (out1, t') := by
  constructor
  · intro h
    unfold run at h
    split at h
    · simp at h
    · rename_i t1 ids u1 h1
      split at h
      · simp at h
      · rename_i out1 t2 h2
        simp only [Except.ok.injEq, Prod.mk.injEq] at h
        obtain ⟨rfl, rfl⟩ := h
        exact ⟨t1, ids, u1, out1, rfl, h1, h2⟩
  · rintro ⟨t1, ids, u1, out1, rfl, h1, h2⟩
    unfold run
    rw [h1]
    simp only [h2]

theorem run_batch {fuel : Nat} {tc : Int} {count : Nat} {es : List (Event V)} {t : Table V} {u v : Gen} {out : List Outcome}
    {t' : Table V} : run fuel tc (.batch count :: es) t u v = .ok (out, t') ↔
      ∃ t1 pts u1 v1 out1, out = .drawn pts :: out1 ∧ batch count tc t u v = .ok (t1, pts, u1, v1) ∧
        run fuel tc es t1 u1 v1 = .ok (out1, t') := by
  constructor
  · intro h
    unfold run at h
    split at h
    · simp at h
    · rename_i t1 pts u1 v1 h1
      split at h
      · simp at h
      · rename_i out1 t2 h2
        simp only [Except.ok.injEq, Prod.mk.injEq] at h
        obtain ⟨rfl, rfl⟩ := h
        exact ⟨t1, pts, u1, v1, out1, rfl, h1, h2⟩
  · rintro ⟨t1, pts, u1, v1, out1, rfl, h1, h2⟩
    unfold run
    rw [h1]
    simp only [h2]

theorem run_law {t0 : Table V} {tc : Nat} : ∀ (es : List (Event V)) (t : Table V) (q : List (Entry V)) (used : List Int),
    St t0 tc t q used → Valid t0 tc es used → ∀ out, Has (happens tc es t out) (law t0.lengthKey t0.maxlen tc es (lensOf q) out) := by
  intro es
  induction es with
  | nil =>
    intro t q used h hv out
    cases out with
    | nil =>
      refine Has.congr (S := Set.univ) (x := 1) ⟨.univ, measure_univ⟩ ?_ rfl
      ext w
      simp [happens, run]
    | cons o out =>
      refine Has.empty.congr ?_ rfl
      ext w
      simp [happens, run]
  | cons e es ih =>
    intro t q used h hv out
    cases e with
    | add id seq =>
      obtain ⟨hs, hid, hnew, ⟨rows, hrows, hl1, hl2, hmax⟩, hv⟩ := hv
      by_cases ho : ∃ ids out1, out = .added ids :: out1
      · obtain ⟨ids, out1, rfl⟩ := ho
        rw [law, rowsOf_eq hrows, trackedTotal_lensOf]
        by_cases hroom : (Spec.total q : Int) + rows.length ≤ t0.maxlen
        · obtain ⟨t1, k1, k2⟩ := h.add_fits hs hid hnew hrows ⟨hl1, hl2⟩ hroom
          rw [ejectLaw_nothing _ (by omega)]
          by_cases hids : ids = []
          · subst hids
            rw [if_pos rfl, one_mul, ← replaced_none q id rows.length seq]
            refine (ih t1 _ _ k1 hv out1).congr ?_ rfl
            ext w
            simp only [happens, Set.mem_ofPred_eq, run_add, k2]
            constructor
            · rintro ⟨fuel, t', t2, ids, u1, out2, ho, ha, hr⟩
              simp only [Except.ok.injEq, Prod.mk.injEq] at ha
              obtain ⟨rfl, _, rfl⟩ := ha
              simp only [List.cons.injEq] at ho
              obtain ⟨_, rfl⟩ := ho
              exact ⟨fuel, t', hr⟩
            · rintro ⟨fuel, t', hr⟩
              exact ⟨fuel, t', t1, [], w.1, out1, rfl, rfl, hr⟩
          · rw [if_neg hids, zero_mul]
            refine Has.empty.congr ?_ rfl
            ext w
            simp only [happens, Set.mem_ofPred_eq, run_add, k2, Set.mem_empty_iff_false, iff_false]
            rintro ⟨fuel, t', t2, ids', u1, out2, ho, ha, hr⟩
            simp only [Except.ok.injEq, Prod.mk.injEq] at ha
            simp only [List.cons.injEq, Outcome.added.injEq] at ho
            exact hids (ho.1.trans ha.2.1.symm)
        · obtain ⟨ws, after, hf, k1, k2⟩ := h.add_ejects hs hid hnew hrows ⟨hl1, hl2⟩ hmax (by omega)
          by_cases hfree : Frees (lensOf q) ((Spec.total q : Int) + rows.length - t0.maxlen) ids
          · refine (eject_law hf (ih _ _ _ (k1 ids hfree) hv out1) _ ids).congr ?_ (by rw [replaced_lensOf])
            ext w
            simp only [happens, gives, Set.mem_ofPred_eq, run_add, k2]
            constructor
            · rintro ⟨fuel, t', t2, ids', u1, out2, ho, ⟨rfl, ha⟩, hr⟩
              simp only [List.cons.injEq, Outcome.added.injEq] at ho
              obtain ⟨rfl, rfl⟩ := ho
              exact ⟨fuel, u1, ha, fuel, t', hr⟩
            · rintro ⟨fuel, u1, ha, fuel', t', hr⟩
              refine ⟨fuel + fuel', t', _, ids, u1, out1, rfl, ⟨rfl, ejectLoop_mono _ _ _ _ _ _ ha⟩, ?_⟩
              rw [Nat.add_comm]
              exact run_mono _ _ _ _ _ _ hr
          · rw [ejectLaw, if_neg hfree, zero_mul]
            refine Has.empty.congr ?_ rfl
            ext w
            simp only [happens, Set.mem_ofPred_eq, run_add, k2, Set.mem_empty_iff_false, iff_false]
            rintro ⟨fuel, t', t2, ids', u1, out2, ho, ⟨rfl, ha⟩, hr⟩
            simp only [List.cons.injEq, Outcome.added.injEq] at ho
            obtain ⟨rfl, rfl⟩ := ho
            exact hfree (ejectLoop_frees hf ha)
      · have hlaw : law t0.lengthKey t0.maxlen tc (.add id seq :: es) (lensOf q) out = 0 := by
          cases out with
          | nil => rfl
          | cons o out =>
            cases o with
            | added ids => exact absurd ⟨ids, out, rfl⟩ ho
            | drawn b => rfl
        rw [hlaw]
        refine Has.empty.congr ?_ rfl
        ext w
        simp only [happens, Set.mem_ofPred_eq, run_add, Set.mem_empty_iff_false, iff_false]
        rintro ⟨fuel, t', t2, ids', u1, out2, rfl, _⟩
        exact ho ⟨_, _, rfl⟩
    | batch count =>
      obtain ⟨hne, hv⟩ := hv
      obtain ⟨ws, t1, hf, k1, k2⟩ := h.batch (h.any hne)
      by_cases ho : ∃ b out1, out = .drawn b :: out1
      · obtain ⟨b, out1, rfl⟩ := ho
        refine (batch_law hf (tc := tc) (fun p hp => ?_) (ih t1 _ _ k1 hv out1) count b).congr ?_ rfl
        · obtain ⟨e, he, rfl⟩ := List.mem_map.1 hp
          exact (h.long e he).1
        · ext w
          simp only [happens, Set.mem_ofPred_eq, run_batch, k2]
          constructor
          · rintro ⟨fuel, t', t2, pts, u1, v1, out2, ho, ⟨rfl, chosen, hc, hp⟩, hr⟩
            simp only [List.cons.injEq, Outcome.drawn.injEq] at ho
            obtain ⟨rfl, rfl⟩ := ho
            exact ⟨chosen, u1, v1, hc, hp, fuel, t', hr⟩
          · rintro ⟨chosen, u1, v1, hc, hp, fuel, t', hr⟩
            exact ⟨fuel, t', t1, b, u1, v1, out1, rfl, ⟨rfl, chosen, hc, hp⟩, hr⟩
      · have hlaw : law t0.lengthKey t0.maxlen tc (.batch count :: es) (lensOf q) out = 0 := by
          cases out with
          | nil => rfl
          | cons o out =>
            cases o with
            | drawn b => exact absurd ⟨b, out, rfl⟩ ho
            | added ids => rfl
        rw [hlaw]
        refine Has.empty.congr ?_ rfl
        ext w
        simp only [happens, Set.mem_ofPred_eq, run_batch, Set.mem_empty_iff_false, iff_false]
        rintro ⟨fuel, t', t2, pts, u1, v1, out2, rfl, _⟩
        exact ho ⟨_, _, rfl⟩

theorem run_stored {t0 : Table V} {tc : Nat} {fuel : Nat} : ∀ (es : List (Event V)) (t : Table V) (q : List (Entry V)) (used : List Int),
    St t0 tc t q used → Valid t0 tc es used → ∀ u v out t', run fuel tc es t u v = .ok (out, t') →
    ∃ q', Inv t' q' ∧ lensOf q' = storedAfter t0.lengthKey es (lensOf q) out ∧ (Spec.total q' : Int) ≤ t0.maxlen := by
  intro es
  induction es with
  | nil =>
    intro t q used h hv u v out t' hr
    simp only [run, Except.ok.injEq, Prod.mk.injEq] at hr
    obtain ⟨rfl, rfl⟩ := hr
    exact ⟨q, h.inv, rfl, h.room⟩
  | cons e es ih =>
    intro t q used h hv u v out t' hr
    cases e with
    | add id seq =>
      obtain ⟨hs, hid, hnew, ⟨rows, hrows, hl1, hl2, hmax⟩, hv⟩ := hv
      obtain ⟨t1, ids, u1, out1, rfl, ha, hr⟩ := run_add.1 hr
      rw [storedAfter, rowsOf_eq hrows]
      by_cases hroom : (Spec.total q : Int) + rows.length ≤ t0.maxlen
      · obtain ⟨t2, k1, k2⟩ := h.add_fits hs hid hnew hrows ⟨hl1, hl2⟩ hroom
        rw [k2] at ha
        simp only [Except.ok.injEq, Prod.mk.injEq] at ha
        obtain ⟨rfl, rfl, rfl⟩ := ha
        rw [← replaced_none q id rows.length seq]
        exact ih _ _ _ k1 hv _ _ _ _ hr
      · obtain ⟨ws, after, hf, k1, k2⟩ := h.add_ejects hs hid hnew hrows ⟨hl1, hl2⟩ hmax (by omega)
        obtain ⟨rfl, hx⟩ := (k2 _ _ _ _ _).1 ha
        rw [← replaced_lensOf q ids id rows.length seq]
        exact ih _ _ _ (k1 ids (ejectLoop_frees hf hx)) hv _ _ _ _ hr
    | batch count =>
      obtain ⟨hne, hv⟩ := hv
      obtain ⟨ws, t1, hf, k1, k2⟩ := h.batch (h.any hne)
      obtain ⟨t2, pts, u1, v1, out1, rfl, hb, hr⟩ := run_batch.1 hr
      obtain ⟨rfl, _⟩ := (k2 _ _ _ _ _ _ _).1 hb
      rw [storedAfter]
      exact ih _ _ _ k1 hv _ _ _ _ hr

theorem points_total {l : Dict Int Nat} {tc : Int} : ∀ (chosen : List Int) (v : Gen), (∀ id ∈ chosen, ∃ len, l.get? id = some len) →
    ∃ pts v', points l tc chosen v = .ok (pts, v') := by
  intro chosen
  induction chosen with
  | nil => intro v _; exact ⟨_, _, rfl⟩
  | cons c chosen ih =>
    intro v h
    obtain ⟨len, hlen⟩ := h c (by simp)
    obtain ⟨pts, v', hp⟩ := ih (rest v) fun id hid => h id (by simp [hid])
    refine ⟨(c, pyInt (v 0 * (((len : Int) - (tc - 1) : Int) : ℝ)), pyInt (v 0 * (((len : Int) - (tc - 1) : Int) : ℝ)) + tc) :: pts, v', ?_⟩
    rw [points]
    simp only [hlen, hp]

theorem choices_total {l : Dict Int Nat} {ws : List ℝ} (h : Fair l ws) : ∀ (n : Nat) (u : Gen), (∀ k, 0 ≤ u k ∧ u k < 1) →
    ∃ chosen u', choices l.keys ws n u = .ok (chosen, u') ∧ ∀ id ∈ chosen, ∃ len, l.get? id = some len := by
  intro n
  induction n with
  | zero => intro u _; exact ⟨_, _, rfl, by simp⟩
  | succ n ih =>
    intro u hu
    obtain ⟨id, len, hid, hlen⟩ := npChoice_ok h (hu 0)
    obtain ⟨chosen, u', hc, hall⟩ := ih (rest u) fun k => hu (k + 1)
    refine ⟨id :: chosen, u', ?_, ?_⟩
    · rw [choices]
      simp only [hid, hc]
    · intro x hx
      rcases List.mem_cons.1 hx with rfl | hx
      · exact ⟨len, hlen⟩
      · exact hall x hx

instance : Countable Outcome :=
  Function.Injective.countable (f := fun o : Outcome => match o with
    | .added ids => (Sum.inl ids : List Int ⊕ List SamplePoint)
    | .drawn b => Sum.inr b) (by
    intro a b h
    cases a <;> cases b <;> simp_all)

open Classical in
theorem run_ends {t0 : Table V} {tc : Nat} : ∀ (es : List (Event V)) (t : Table V) (q : List (Entry V)) (used : List Int),
    St t0 tc t q used → Valid t0 tc es used → generators {w | ¬ ∃ out, w ∈ happens tc es t out} = 0 := by
  intro es
  induction es with
  | nil =>
    intro t q used h hv
    have : {w : Gen × Gen | ¬ ∃ out, w ∈ happens tc [] t out} = ∅ := by
      ext w
      simp [happens, run]
    rw [this, measure_empty]
  | cons e es ih =>
    intro t q used h hv
    have hmeas : ∀ (t : Table V) (q : List (Entry V)) (used : List Int), St t0 tc t q used → Valid t0 tc es used →
        Has {w | ¬ ∃ out, w ∈ happens tc es t out} 0 := by
      intro t q used h hv
      have : {w : Gen × Gen | ¬ ∃ out, w ∈ happens tc es t out} = (⋃ out, happens tc es t out)ᶜ := by ext w; simp
      refine ⟨?_, ih t q used h hv⟩
      rw [this]
      exact (MeasurableSet.iUnion fun out => (run_law es t q used h hv out).1).compl
    cases e with
    | add id seq =>
      obtain ⟨hs, hid, hnew, ⟨rows, hrows, hl1, hl2, hmax⟩, hv⟩ := hv
      by_cases hroom : (Spec.total q : Int) + rows.length ≤ t0.maxlen
      · obtain ⟨t1, k1, k2⟩ := h.add_fits hs hid hnew hrows ⟨hl1, hl2⟩ hroom
        refine measure_mono_null ?_ (ih t1 _ _ k1 hv)
        rintro w hw ⟨out, fuel, t', hr⟩
        exact hw ⟨.added [] :: out, fuel, t', run_add.2 ⟨t1, [], w.1, out, rfl, k2 _ _, hr⟩⟩
      · obtain ⟨ws, after, hf, k1, k2⟩ := h.add_ejects hs hid hnew hrows ⟨hl1, hl2⟩ hmax (by omega)
        refine measure_mono_null (t := {w | ¬ ∃ out, w ∈ gives (lensOf q) ws Set.univ
            ((Spec.total q : Int) + rows.length - t0.maxlen) [] out} ∪
          ⋃ ids, if Frees (lensOf q) ((Spec.total q : Int) + rows.length - t0.maxlen) ids then
            gives (lensOf q) ws {w | ¬ ∃ out, w ∈ happens tc es (after ids) out}
              ((Spec.total q : Int) + rows.length - t0.maxlen) [] ids else ∅) ?_ ?_
        · intro w hw
          by_cases hg : ∃ out, w ∈ gives (lensOf q) ws Set.univ ((Spec.total q : Int) + rows.length - t0.maxlen) [] out
          · obtain ⟨ids, fuel, u', hx, _⟩ := hg
            refine .inr (Set.mem_iUnion.2 ⟨ids, ?_⟩)
            rw [if_pos (ejectLoop_frees hf hx)]
            refine ⟨fuel, u', hx, ?_⟩
            rintro ⟨out, fuel', t', hr⟩
            refine hw ⟨.added ids :: out, fuel + fuel', t', run_add.2 ⟨after ids, ids, u', out, rfl,
              (k2 _ _ _ _ _).2 ⟨rfl, ejectLoop_mono _ _ _ _ _ _ hx⟩, ?_⟩⟩
            rw [Nat.add_comm]
            exact run_mono _ _ _ _ _ _ hr
          · exact .inl hg
        · refine measure_union_null (ends hf _ _ _ (Int.self_le_toNat _) (by simp) ?_) (measure_iUnion_null fun ids => ?_)
          · rw [lenSum_nil, trackedTotal_lensOf]
            push_cast; omega
          · split
            · rename_i hfree
              rw [(eject_law hf (hmeas _ _ _ (k1 ids hfree) hv) _ ids).2, mul_zero]
            · exact measure_empty
    | batch count =>
      obtain ⟨hne, hv⟩ := hv
      obtain ⟨ws, t1, hf, k1, k2⟩ := h.batch (h.any hne)
      have hlong : ∀ p ∈ lensOf q, tc ≤ p.2 := by
        intro p hp
        obtain ⟨e, he, rfl⟩ := List.mem_map.1 hp
        exact (h.long e he).1
      refine measure_mono_null (t := {w : Gen × Gen | ¬ ∀ k, 0 ≤ w.1 k ∧ w.1 k < 1} ∪
        ⋃ b, {w | ∃ chosen u' v', choices (lensOf q).keys ws count w.1 = .ok (chosen, u') ∧ points (lensOf q) tc chosen w.2 = .ok (b, v') ∧
          (u', v') ∈ {w : Gen × Gen | ¬ ∃ out, w ∈ happens tc es t1 out}}) ?_ ?_
      · intro w hw
        by_cases hu : ∀ k, 0 ≤ w.1 k ∧ w.1 k < 1
        · obtain ⟨chosen, u', hc, hall⟩ := choices_total hf count w.1 hu
          obtain ⟨b, v', hp⟩ := points_total (tc := tc) chosen w.2 hall
          refine .inr (Set.mem_iUnion.2 ⟨b, chosen, u', v', hc, hp, ?_⟩)
          rintro ⟨out, fuel, t', hr⟩
          exact hw ⟨.drawn b :: out, fuel, t', run_batch.2 ⟨t1, b, u', v', out, rfl, (k2 _ _ _ _ _ _ _).2 ⟨rfl, chosen, hc, hp⟩, hr⟩⟩
        · exact .inl hu
      · refine measure_union_null ?_ (measure_iUnion_null fun b => ?_)
        · have := BatchMean.ae_generators
          rw [ae_iff] at this
          refine measure_mono_null ?_ this
          intro w hw hx
          exact hw fun k => (hx k).1
        · rw [(batch_law hf hlong (hmeas _ _ _ k1 hv) count b).2, mul_zero]

/-! ## Theorems -/

theorem St.start {columns : List Column} {maxlen : Int} {lk : String} {t0 : Table V} (tc : Nat) (hm : 0 ≤ maxlen)
    (h : Table.new columns maxlen (.uniform {}) (.uniform {}) lk = (t0, .ok ())) : St t0 tc t0 [] [] ∧ t0.lengthKey = lk ∧ t0.maxlen = maxlen := by
  obtain ⟨h1, h2, h3, h4, h5⟩ := new_ok .uniform .uniform h
  have hk : t0.sampler.kind = 1 ∧ t0.ejector.kind = 1 := by
    unfold Table.new Table.clear at h
    simp only at h
    split at h
    · simp at h
    · injection h with h _
      subst h
      exact ⟨rfl, rfl⟩
  exact ⟨⟨h1, .rfl', hk.1, hk.2, by simp, by rw [total_nil, h3]; exact hm, by simp, by simp, by simp⟩, h4, h3⟩

/-- **C155**: In a memory that samples and ejects at random, both with one generator, what is ejected and drawn over any history has
exactly the probability that it has if each ejection and each batch were fresh random draws that depend on the past only through what is
stored. -/
theorem C155 {columns : List Column} {maxlen : Int} {lk : String} {t0 : Table V} {tc : Nat} {es : List (Event V)} (hm : 0 ≤ maxlen)
    (h : Table.new columns maxlen (.uniform {}) (.uniform {}) lk = (t0, .ok ())) (hv : Valid t0 tc es []) (out : List Outcome) :
    MeasurableSet {w : Gen × Gen | ∃ fuel t, run fuel tc es t0 w.1 w.2 = .ok (out, t)} ∧
    generators {w | ∃ fuel t, run fuel tc es t0 w.1 w.2 = .ok (out, t)} = law lk maxlen tc es [] out := by
  obtain ⟨h1, rfl, rfl⟩ := St.start tc hm h
  exact run_law es t0 [] [] h1 hv out

/-- **C155**, continued: it almost surely comes to an end without an error. -/
theorem C155_ends {columns : List Column} {maxlen : Int} {lk : String} {t0 : Table V} {tc : Nat} {es : List (Event V)} (hm : 0 ≤ maxlen)
    (h : Table.new columns maxlen (.uniform {}) (.uniform {}) lk = (t0, .ok ())) (hv : Valid t0 tc es []) :
    ∀ᵐ w ∂generators, ∃ fuel out t, run fuel tc es t0 w.1 w.2 = .ok (out, t) := by
  obtain ⟨h1, rfl, rfl⟩ := St.start tc hm h
  rw [ae_iff]
  refine measure_mono_null ?_ (run_ends es t0 [] [] h1 hv)
  rintro w hw ⟨out, fuel, t', hr⟩
  exact hw ⟨fuel, out, t', hr⟩

/-- **C155**, continued: what is stored then is what was added and not ejected, and it is not more than the memory may hold. -/
theorem C155_stored {columns : List Column} {maxlen : Int} {lk : String} {t0 t : Table V} {tc : Nat} {es : List (Event V)} (hm : 0 ≤ maxlen)
    (h : Table.new columns maxlen (.uniform {}) (.uniform {}) lk = (t0, .ok ())) (hv : Valid t0 tc es []) {fuel : Nat} {u v : Gen}
    {out : List Outcome} (hr : run fuel tc es t0 u v = .ok (out, t)) :
    t.lengths = storedAfter lk es [] out ∧ t.total = (trackedTotal (storedAfter lk es [] out) : Int) ∧ t.total ≤ maxlen := by
  obtain ⟨h1, rfl, rfl⟩ := St.start tc hm h
  obtain ⟨q, k1, k2, k3⟩ := run_stored es t0 [] [] h1 hv u v out t hr
  have k2' : lensOf q = storedAfter t0.lengthKey es [] out := k2
  rw [← k2', trackedTotal_lensOf, k1.total]
  exact ⟨k1.lengths, rfl, k3⟩

/-- The numbers settle what happens. -/
theorem happens_unique {tc : Nat} {es : List (Event V)} {t : Table V} {w : Gen × Gen} {a b : List Outcome} (ha : w ∈ happens tc es t a)
    (hb : w ∈ happens tc es t b) : a = b := by
  obtain ⟨m, t1, h1⟩ := ha
  obtain ⟨n, t2, h2⟩ := hb
  have h1 := run_mono n es t w.1 w.2 _ h1
  have h2 := run_mono m es t w.1 w.2 _ h2
  rw [Nat.add_comm, h1] at h2
  simp only [Except.ok.injEq, Prod.mk.injEq] at h2
  exact h2.1

/-- **C155**, continued: so the probabilities are those of everything that may happen. -/
theorem C155_total {columns : List Column} {maxlen : Int} {lk : String} {t0 : Table V} {tc : Nat} {es : List (Event V)} (hm : 0 ≤ maxlen)
    (h : Table.new columns maxlen (.uniform {}) (.uniform {}) lk = (t0, .ok ())) (hv : Valid t0 tc es []) :
    ∑' out, law lk maxlen tc es [] out = 1 := by
  have h1 : ∀ out, law lk maxlen tc es [] out = generators (happens tc es t0 out) := fun out => (C155 hm h hv out).2.symm
  simp only [h1]
  rw [← measure_iUnion (fun a b hab => Set.disjoint_left.2 fun w ha hb => hab (happens_unique ha hb)) fun out => (C155 hm h hv out).1]
  have hall : ∀ᵐ w ∂generators, w ∈ ⋃ out, happens tc es t0 out := by
    filter_upwards [C155_ends hm h hv] with w ⟨fuel, out, t, hr⟩
    exact Set.mem_iUnion.2 ⟨out, fuel, t, hr⟩
  exact (mem_ae_iff_prob_eq_one (MeasurableSet.iUnion fun out => (C155 hm h hv out).1)).1 hall

/-! ## Example -/

namespace Ex

open Verif.Props.Ex (cols ep)

/-- A memory for five transitions: two sequences, a batch, a third sequence for which one has to go, and a batch -/
def es : List (Event Nat) :=
  [.add 7 (ep [10, 11] [1, 2, 3] 0), .add 8 (ep [20, 21, 22] [4, 5, 6, 7] 1), .batch 1, .add 9 (ep [30, 31] [8, 9, 10] 1), .batch 2]

theorem valid : Valid EjectLaw.Ex.r0 1 es [] :=
  ⟨⟨by decide +kernel, by decide +kernel, by decide +kernel⟩, by decide, by decide, ⟨_, rfl, by decide, by decide, by decide⟩,
    ⟨by decide +kernel, by decide +kernel, by decide +kernel⟩, by decide, by decide, ⟨_, rfl, by decide, by decide, by decide⟩,
    by decide,
    ⟨by decide +kernel, by decide +kernel, by decide +kernel⟩, by decide, by decide, ⟨_, rfl, by decide, by decide, by decide⟩,
    by decide, trivial⟩

/-- What may happen: the second sequence goes -/
def out : List Outcome := [.added [], .added [], .drawn [(7, 0, 1)], .added [8], .drawn [(9, 1, 2), (7, 0, 1)]]

theorem law_eq : law "actions" 5 1 es [] out = ENNReal.ofReal (1 / 5 * (3 / 5) * (1 / 4) * (1 / 4)) := by
  have h0 : ∀ l, ejectLaw l (-3) [] = 1 := fun l => by rw [ejectLaw_nothing l (by decide), if_pos rfl]
  have h1 : ∀ l, ejectLaw l 0 [] = 1 := fun l => by rw [ejectLaw_nothing l (by decide), if_pos rfl]
  have h2 : ejectLaw [(7, 2), (8, 3)] 2 [8] = ENNReal.ofReal (3 / 5) := by
    rw [ejectLaw, if_pos]
    · congr 1
      simp [oneByOne, amount, Dict.get?, trackedTotal]
    · refine ⟨by decide, by simp, by decide, ?_⟩
      intro pre last h
      cases pre with
      | nil => decide
      | cons a pre => simp at h
  have e1 : law "actions" 5 1 es [] out = ejectLaw [] (-3) [] * (ejectLaw [(7, 2)] 0 [] *
      (ENNReal.ofReal (windowLaw [(7, 2), (8, 3)] 1 (7, 0, 1)) * 1 * (ejectLaw [(7, 2), (8, 3)] 2 [8] *
        (ENNReal.ofReal (windowLaw [(7, 2), (9, 2)] 1 (9, 1, 2)) * (ENNReal.ofReal (windowLaw [(7, 2), (9, 2)] 1 (7, 0, 1)) * 1) * 1)))) := by
    simp [law, es, out, replaced, rowsOf, ep, trackedTotal, Dict.get?]
  have w1 : windowLaw [(7, 2), (8, 3)] 1 (7, 0, 1) = 1 / 5 := by norm_num [windowLaw, Dict.get?, trackedTotal]
  have w2 : windowLaw [(7, 2), (9, 2)] 1 (9, 1, 2) = 1 / 4 := by norm_num [windowLaw, Dict.get?, trackedTotal]
  have w3 : windowLaw [(7, 2), (9, 2)] 1 (7, 0, 1) = 1 / 4 := by norm_num [windowLaw, Dict.get?, trackedTotal]
  rw [e1, h0, h1, h2, w1, w2, w3, one_mul, one_mul, mul_one, mul_one, mul_one, ← ENNReal.ofReal_mul (by norm_num),
    ← ENNReal.ofReal_mul (by norm_num), ← ENNReal.ofReal_mul (by norm_num)]
  congr 1
  norm_num

example : generators {w | ∃ fuel t, run fuel ((1 : Nat) : Int) es EjectLaw.Ex.r0 w.1 w.2 = .ok (out, t)} = ENNReal.ofReal (3 / 400) := by
  rw [(C155 (t0 := EjectLaw.Ex.r0) (columns := cols) (maxlen := 5) (lk := "actions") (by decide) (Prod.ext rfl (by decide +kernel)) valid
    out).2, law_eq]
  norm_num

end Ex

end UniformRun

end Verif.Props
