import Verif.Props.Survive

/-!
# C169: with random ejection every episode goes
-/

namespace Verif.Props

namespace Gone

open Verif Verif.Spec MeasureTheory Filter UniformRun Survive
open Verif.UniformRun (Gen Event Outcome run)
open Verif.Props.RealDraws (generators)
open scoped ENNReal Classical Topology

variable {V : Type}

/-! ## Specification -/

/-- How many sequences are added -/
def adds : List (Event V) → Nat
  | [] => 0
  | .add _ _ :: es => adds es + 1
  | .batch _ :: es => adds es

/-! ## Proofs -/

section
variable {lk : String} {maxlen : Int} {tc : Nat}

/-- Between two ejections only so many sequences fit into the memory. -/
theorem count {t0 : Table V} (hlk : t0.lengthKey = lk) : ∀ (es : List (Event V)) (l : Dict Int Nat) (used : List Int) (out : List Outcome),
    Ok maxlen tc l used → Valid t0 tc es used → law lk maxlen tc es l out ≠ 0 →
    (trackedTotal l : Int) + adds es ≤ ejecting out * (maxlen + 1) + maxlen := by
  intro es
  induction es with
  | nil =>
    intro l used out hok _ hl
    cases out with
    | nil => simpa [adds, ejecting] using hok.room
    | cons o out => simp [law] at hl
  | cons e es ih =>
    intro l used out hok hv hl
    cases e with
    | batch n =>
      cases out with
      | nil => simp [law] at hl
      | cons o out =>
        cases o with
        | added ids => simp [law] at hl
        | drawn b =>
          rw [law] at hl
          simpa [adds, ejecting] using ih l used out hok hv.2 (right_ne_zero_of_mul hl)
    | add id seq =>
      cases out with
      | nil => simp [law] at hl
      | cons o out =>
        cases o with
        | drawn b => simp [law] at hl
        | added ids =>
          obtain ⟨-, -, hnew, ⟨rows, hrows, hr1, hr2, -⟩, hv'⟩ := hv
          rw [hlk] at hrows
          rw [law, rowsOf_eq hrows] at hl
          have hf : Frees l (trackedTotal l + rows.length - maxlen) ids := by
            by_contra hn
            exact left_ne_zero_of_mul hl (by rw [ejectLaw, if_neg hn])
          have h1 := ih _ _ out (hok.replaced hnew hr1 hr2 hf) hv' (right_ne_zero_of_mul hl)
          have h2 := hok.room
          cases ids with
          | nil =>
            have h3 : trackedTotal (replaced l [] id rows.length) = trackedTotal l + rows.length := by
              simp [replaced, trackedTotal]
            rw [h3] at h1
            simp only [adds, ejecting]
            push_cast at h1 ⊢
            omega
          | cons x ids =>
            simp only [adds, ejecting]
            push_cast at h1 ⊢
            have h4 : ((ejecting out : Int) + 1) * (maxlen + 1) = ejecting out * (maxlen + 1) + (maxlen + 1) := by ring
            omega

end

/-- **C169** for additions: after `n` more sequences were added, an episode is still stored with a probability of at most (1 - its length / the
capacity) to the power of `n / (capacity + 1)`, rounded down. -/
theorem C169_additions {columns : List Column} {maxlen : Int} {lk : String} {t0 : Table V} {tc : Nat} {es1 es2 : List (Event V)} {id : Int}
    {seq : Seqn V} (hm : 0 ≤ maxlen) (h : Table.new columns maxlen (.uniform {}) (.uniform {}) lk = (t0, .ok ()))
    (hv : Valid t0 tc (es1 ++ .add id seq :: es2) []) :
    generators {w : Gen × Gen | ∃ fuel out t, run fuel tc (es1 ++ .add id seq :: es2) t0 w.1 w.2 = .ok (out, t) ∧ id ∈ t.lengths.keys} ≤
      ENNReal.ofReal (1 - (rowsOf seq lk).length / (maxlen : ℝ)) ^ (adds es2 / (maxlen.toNat + 1)) := by
  obtain ⟨-, h2, -⟩ := St.start tc hm h
  have h3 := of_sum hm h hv id fun out => (fun _ => True) (out.drop (es1.length + 1))
  simp only [and_true] at h3
  refine h3.trans ?_
  have h4 := before_sum (lk := lk) (maxlen := maxlen) (tc := tc) (x := ENNReal.ofReal (1 - (rowsOf seq lk).length / (maxlen : ℝ)) ^ (adds es2 / (maxlen.toNat + 1)))
    (seq := seq) (id := id) h2 es2 (fun _ => True) (fun l used h3 h4 h5 _ h6 => ?_) es1 [] [] (ok_nil hm) hv
  · simpa using h4
  · refine le_trans ?_ (after_sum h2 h5 es2 l used _ h3 h4 h6)
    refine ENNReal.tsum_le_tsum fun out => ?_
    by_cases hl : law lk maxlen tc es2 l out = 0
    · simp [hl]
    · have h7 := count h2 es2 l used out h3 h6 hl
      have h8 : adds es2 / (maxlen.toNat + 1) ≤ ejecting out := by
        rw [← Nat.lt_succ_iff, Nat.div_lt_iff_lt_mul (by omega)]
        have h9 : (maxlen.toNat : Int) = maxlen := Int.toNat_of_nonneg hm
        zify
        rw [h9]
        push_cast
        nlinarith
      simp only [and_true, h8]
      exact le_rfl

namespace Ex

open Verif.Props.Ex (cols ep)

/-- Seven sequences of two transitions -/
def es : List (Event Nat) :=
  [.add 7 (ep [10, 11] [1, 2, 3] 0), .add 8 (ep [10, 11] [1, 2, 3] 0), .add 9 (ep [10, 11] [1, 2, 3] 0), .add 10 (ep [10, 11] [1, 2, 3] 0),
    .add 11 (ep [10, 11] [1, 2, 3] 0), .add 12 (ep [10, 11] [1, 2, 3] 0), .add 13 (ep [10, 11] [1, 2, 3] 0)]

theorem valid : Valid EjectLaw.Ex.r0 1 es [] := by
  iterate 7
    refine ⟨⟨by decide +kernel, by decide +kernel, by decide +kernel⟩, by decide, by decide, ⟨_, rfl, by decide, by decide, by decide⟩, ?_⟩
  trivial

/-- In a memory for five transitions, the first one is still there at the end with a probability of at most three fifths. -/
example : generators {w : Gen × Gen | ∃ fuel out t, run fuel ((1 : Nat) : Int) es EjectLaw.Ex.r0 w.1 w.2 = .ok (out, t) ∧ 7 ∈ t.lengths.keys} ≤
    ENNReal.ofReal (3 / 5) := by
  have := C169_additions (t0 := EjectLaw.Ex.r0) (columns := cols) (maxlen := 5) (lk := "actions") (es1 := [])
    (es2 := es.drop 1) (id := 7) (seq := ep [10, 11] [1, 2, 3] 0) (tc := 1) (by norm_num) (by decide +kernel) valid
  have h1 : (rowsOf (ep [10, 11] [1, 2, 3] 0) "actions").length = 2 := by decide +kernel
  have h2 : adds (es.drop 1) / ((5 : Int).toNat + 1) = 1 := by decide +kernel
  rw [h1, h2, pow_one] at this
  refine this.trans (ENNReal.ofReal_le_ofReal ?_)
  norm_num

end Ex

end Gone

end Verif.Props
