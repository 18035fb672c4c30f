import Verif.Props.Survive

/-!
# C170: uniform sampling leaves nothing out
-/

namespace Verif.Props

namespace LeftOut

open Verif Verif.Spec MeasureTheory UniformRun Survive
open Verif.UniformRun (Gen Event Outcome run)
open Verif.Props.RealDraws (unit generators windowLaw)
open scoped ENNReal Classical

variable {V : Type}

/-! ## Specification -/

/-- How many windows were drawn -/
def drawn : List Outcome → Nat
  | [] => 0
  | .added _ :: out => drawn out
  | .drawn b :: out => b.length + drawn out

/-! ## Proofs -/

theorem others {tc : Nat} {l : Dict Int Nat} (hf : Starve.Fine tc l) (hne : l ≠ []) (x : SamplePoint) :
    ∑' p, (if p = x then 0 else ENNReal.ofReal (windowLaw l tc p)) ≤ 1 - ENNReal.ofReal (windowLaw l tc x) := by
  have h := batch_one hf hne 1
  rw [Starve.tsum_pow, pow_one, ENNReal.tsum_eq_add_tsum_ite x] at h
  refine ENNReal.le_sub_of_add_le_left ENNReal.ofReal_ne_top (le_trans (le_of_eq ?_) h)
  congr!

theorem batch_without {tc : Nat} {l : Dict Int Nat} (hf : Starve.Fine tc l) (hne : l ≠ []) (x : SamplePoint) (count : Nat) :
    ∑' b : List SamplePoint, (if x ∈ b then 0 else if b.length = count then (b.map fun p => ENNReal.ofReal (windowLaw l tc p)).prod else 0) ≤
      (1 - ENNReal.ofReal (windowLaw l tc x)) ^ count := by
  refine le_trans ?_ (pow_le_pow_left₀ zero_le (others hf hne x) count)
  rw [← Starve.tsum_pow]
  refine ENNReal.tsum_le_tsum fun b => ?_
  by_cases hx : x ∈ b
  · rw [if_pos hx]; exact zero_le
  · rw [if_neg hx]
    by_cases hb : b.length = count
    · rw [if_pos hb, if_pos hb]
      refine le_of_eq (congrArg _ (List.map_congr_left fun p hp => ?_))
      rw [if_neg (show ¬ p = x from fun e => hx (e ▸ hp))]
    · rw [if_neg hb, if_neg hb]

section
variable {lk : String} {maxlen : Int} {tc : Nat}

theorem after_sum {t0 : Table V} (hlk : t0.lengthKey = lk) {id : Int} {len : Nat} (hlen : 0 < len) {o : Nat} (ho : o + tc ≤ len) :
    ∀ (es : List (Event V)) (l : Dict Int Nat) (used : List Int) (M : Nat), Ok maxlen tc l used → (id, len) ∈ l → Valid t0 tc es used →
    sumOver (fun out => id ∈ (storedAfter lk es l out).keys ∧ (∀ b, .drawn b ∈ out → (id, (o : Int), (o : Int) + tc) ∉ b) ∧ M ≤ drawn out)
      (law lk maxlen tc es l) ≤ ENNReal.ofReal (1 - len / (maxlen * (len - tc + 1 : ℕ) : ℝ)) ^ M := by
  intro es
  induction es with
  | nil =>
    intro l used M _ _ _
    rw [sumOver, tsum_eq_single [] fun out hne => by
      cases out with
      | nil => exact absurd rfl hne
      | cons o out => simp [law]]
    by_cases hn : M = 0
    · subst hn
      split <;> simp [law]
    · rw [if_neg (by rintro ⟨-, -, h⟩; simp [drawn] at h; exact hn h)]; exact zero_le
  | cons e es ih =>
    intro l used M hok hmem hv
    have hT : (len : ℝ) ≤ trackedTotal l := by
      have : len ≤ trackedTotal l := List.single_le_sum (by simp) _ (List.mem_map.2 ⟨_, hmem, rfl⟩)
      exact_mod_cast this
    have hlen' : (0 : ℝ) < len := by exact_mod_cast hlen
    have hroom : (trackedTotal l : ℝ) ≤ maxlen := by exact_mod_cast hok.room
    have hw : (0 : ℝ) < (len - tc + 1 : ℕ) := by positivity
    cases e with
    | batch count =>
      have hlaw : windowLaw l tc (id, (o : Int), (o : Int) + tc) = len / trackedTotal l * (1 / (len - tc + 1 : ℕ)) := by
        unfold windowLaw
        rw [Dict.get?_of_mem hok.fine.nodup hmem]
        exact if_pos ⟨by positivity, show (o : Int) + tc ≤ len by exact_mod_cast ho, rfl⟩
      have hp : 1 - ENNReal.ofReal (windowLaw l tc (id, (o : Int), (o : Int) + tc)) ≤ ENNReal.ofReal (1 - len / (maxlen * (len - tc + 1 : ℕ) : ℝ)) := by
        rw [hlaw, ← ENNReal.ofReal_one, ← ENNReal.ofReal_sub _ (by positivity)]
        refine ENNReal.ofReal_le_ofReal ?_
        have h1 : (len : ℝ) / (maxlen * (len - tc + 1 : ℕ)) = len / maxlen * (1 / (len - tc + 1 : ℕ)) := by rw [div_mul_div_comm, mul_one]
        have h2 := div_le_div_of_nonneg_left hlen'.le (by linarith : (0 : ℝ) < trackedTotal l) hroom
        rw [h1]
        have h3 := mul_le_mul_of_nonneg_right h2 (by positivity : (0 : ℝ) ≤ 1 / (len - tc + 1 : ℕ))
        linarith
      have hp1 : ENNReal.ofReal (1 - len / (maxlen * (len - tc + 1 : ℕ) : ℝ)) ≤ 1 := by
        rw [ENNReal.ofReal_le_one]
        have h0 : (0 : ℝ) ≤ maxlen := by linarith
        have : 0 ≤ (len : ℝ) / (maxlen * (len - tc + 1 : ℕ)) := by positivity
        linarith
      set p := ENNReal.ofReal (1 - len / (maxlen * (len - tc + 1 : ℕ) : ℝ)) with hpdef
      unfold sumOver
      rw [Starve.tsum_cons _ (by simp [law]), tsum_drawn _ fun ids => by simp [law]]
      refine le_trans (ENNReal.tsum_le_tsum (g := fun b : List SamplePoint => (if (id, (o : Int), (o : Int) + tc) ∈ b then 0 else
        if b.length = count then (b.map fun q => ENNReal.ofReal (windowLaw l tc q)).prod else 0) * p ^ (M - count)) fun b => ?_) ?_
      · by_cases hb : (id, (o : Int), (o : Int) + tc) ∈ b
        · rw [if_pos hb, zero_mul]
          refine le_of_eq (ENNReal.tsum_eq_zero.2 fun out => if_neg ?_)
          rintro ⟨-, h, -⟩
          exact h b (by simp) hb
        · rw [if_neg hb]
          by_cases hbc : b.length = count
          · rw [if_pos hbc]
            refine le_trans ?_ (mul_le_mul_right (ih l used (M - count) hok hmem hv.2) _)
            rw [sumOver, ← ENNReal.tsum_mul_left]
            refine ENNReal.tsum_le_tsum fun out => ?_
            split
            · next h =>
              have hM := h.2.2
              rw [drawn] at hM
              have hM' : M - count ≤ drawn out := by omega
              have hcond : id ∈ (storedAfter lk es l out).keys ∧ (∀ b, .drawn b ∈ out → (id, (o : Int), (o : Int) + tc) ∉ b) ∧ M - count ≤ drawn out :=
                ⟨h.1, fun b' hb' => h.2.1 b' (by simp [hb']), hM'⟩
              rw [if_pos hcond, law, if_pos hbc]
            · exact zero_le
          · rw [if_neg hbc, zero_mul]
            refine le_of_eq (ENNReal.tsum_eq_zero.2 fun out => ?_)
            split
            · rw [law, if_neg hbc, zero_mul]
            · rfl
      · rw [ENNReal.tsum_mul_right]
        refine le_trans (mul_le_mul_left ((batch_without hok.fine (hok.any hv.1) _ count).trans (pow_le_pow_left₀ zero_le hp count)) _) ?_
        rw [← pow_add]
        exact pow_le_pow_of_le_one zero_le hp1 (by omega)
    | add id' seq =>
      have hidu : id ∈ used := hok.known id (Dict.mem_keys_of_mem hmem)
      have hv0 := hv
      obtain ⟨-, -, hnew, ⟨rows, hrows, hr1, hr2, -⟩, hv'⟩ := hv
      refine sum_adds hlk _ hok hv0 fun ids hok' => ?_
      by_cases hi : id ∈ ids
      · rw [sumOver, ENNReal.tsum_eq_zero.2]
        · exact zero_le
        intro out
        refine if_neg ?_
        rintro ⟨h, -⟩
        rw [storedAfter] at h
        refine gone es _ (id' :: used) out ?_ (List.mem_cons_of_mem _ hidu) hv' h
        intro hk
        simp only [replaced, Dict.keys, List.map_append, List.map_cons, List.map_nil, List.mem_append, List.mem_singleton] at hk
        rcases hk with hk | hk
        · obtain ⟨p, hp, rfl⟩ := List.mem_map.1 hk
          have := (List.mem_filter.1 hp).2
          simp at this
          exact this hi
        · exact hnew (hk ▸ hidu)
      · refine le_trans (sumOver_mono fun out hq => ?_) (ih _ (id' :: used) M hok'
          (List.mem_append.2 (Or.inl (List.mem_filter.2 ⟨hmem, by simpa using hi⟩))) hv')
        rw [storedAfter] at hq
        exact ⟨hq.1, fun b hb => hq.2.1 b (by simp [hb]), hq.2.2⟩

end

/-- **C170**: In a memory that samples and ejects at random, a window of an episode that is still stored after `M` later draws was not drawn
with a probability of at most (1 - len / (capacity * number of its windows)) to the power `M`, whatever the history. -/
theorem C170 {columns : List Column} {maxlen : Int} {lk : String} {t0 : Table V} {tc : Nat} {es1 es2 : List (Event V)} {id : Int} {seq : Seqn V}
    (hm : 0 ≤ maxlen) (h : Table.new columns maxlen (.uniform {}) (.uniform {}) lk = (t0, .ok ()))
    (hv : Valid t0 tc (es1 ++ .add id seq :: es2) []) {o : Nat} (ho : o + tc ≤ (rowsOf seq lk).length) (M : Nat) :
    generators {w : Gen × Gen | ∃ fuel out t, run fuel tc (es1 ++ .add id seq :: es2) t0 w.1 w.2 = .ok (out, t) ∧ id ∈ t.lengths.keys ∧
      (∀ b, .drawn b ∈ out.drop (es1.length + 1) → (id, (o : Int), (o : Int) + tc) ∉ b) ∧ M ≤ drawn (out.drop (es1.length + 1))} ≤
    ENNReal.ofReal (1 - (rowsOf seq lk).length / (maxlen * ((rowsOf seq lk).length - tc + 1 : ℕ) : ℝ)) ^ M := by
  obtain ⟨-, h2, -⟩ := St.start tc hm h
  exact le_trans (of_sum hm h hv id fun out => (∀ b, .drawn b ∈ out.drop (es1.length + 1) → (id, (o : Int), (o : Int) + tc) ∉ b) ∧
      M ≤ drawn (out.drop (es1.length + 1)))
    (before_sum h2 es2 (fun out => (∀ b, .drawn b ∈ out → (id, (o : Int), (o : Int) + tc) ∉ b) ∧ M ≤ drawn out)
      (fun l used h3 h4 h5 _ h6 => after_sum h2 h5 ho es2 l used M h3 h4 h6) es1 [] [] (ok_nil hm) hv)

/-- **C170** for single transitions: at most (1 - 1 / capacity) to the power `M`. -/
theorem C170_transitions {columns : List Column} {maxlen : Int} {lk : String} {t0 : Table V} {es1 es2 : List (Event V)} {id : Int} {seq : Seqn V}
    (hm : 0 ≤ maxlen) (h : Table.new columns maxlen (.uniform {}) (.uniform {}) lk = (t0, .ok ()))
    (hv : Valid t0 1 (es1 ++ .add id seq :: es2) []) {o : Nat} (ho : o < (rowsOf seq lk).length) (M : Nat) :
    generators {w : Gen × Gen | ∃ fuel out t, run fuel (1 : Nat) (es1 ++ .add id seq :: es2) t0 w.1 w.2 = .ok (out, t) ∧ id ∈ t.lengths.keys ∧
      (∀ b, .drawn b ∈ out.drop (es1.length + 1) → (id, (o : Int), (o : Int) + 1) ∉ b) ∧ M ≤ drawn (out.drop (es1.length + 1))} ≤
    ENNReal.ofReal (1 - 1 / (maxlen : ℝ)) ^ M := by
  have := C170 hm h hv (o := o) (by omega) M
  rw [show (rowsOf seq lk).length - 1 + 1 = (rowsOf seq lk).length by omega] at this
  have hl : ((rowsOf seq lk).length : ℝ) ≠ 0 := by
    have : 0 < (rowsOf seq lk).length := by omega
    positivity
  rwa [div_mul_cancel_right₀ hl, ← one_div] at this

namespace Ex

open Verif.Props.Ex (cols)

/-- In a memory for five transitions, the probability that none of two later draws is a certain transition of an episode that stays. -/
example : generators {w : Gen × Gen | ∃ fuel out t, run fuel ((1 : Nat) : Int) UniformRun.Ex.es EjectLaw.Ex.r0 w.1 w.2 = .ok (out, t) ∧
    8 ∈ t.lengths.keys ∧ (∀ b, .drawn b ∈ out.drop 2 → (8, 1, 2) ∉ b) ∧ 3 ≤ drawn (out.drop 2)} ≤ ENNReal.ofReal (4 / 5) ^ 3 := by
  have := C170_transitions (t0 := EjectLaw.Ex.r0) (columns := cols) (maxlen := 5) (lk := "actions") (es1 := UniformRun.Ex.es.take 1)
    (by decide) (Prod.ext rfl (by decide +kernel)) UniformRun.Ex.valid (o := 1) (by decide +kernel) 3
  refine this.trans (le_of_eq ?_)
  norm_num

end Ex

end LeftOut

end Verif.Props
