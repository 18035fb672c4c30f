import Verif.Props.CoverageRun
import Verif.Props.RealEject

/-!
# C167: a coverage-based sampler draws everything that stays again and again
-/

namespace Verif.Props

namespace Starve

open Verif Verif.Spec MeasureTheory Filter CoverageRun
open Verif.CoverageRun (Event run)
open Verif.Props.RealDraws (unit generators)
open scoped ENNReal Classical Topology

/-! ## Specification -/

/-- What is stored after these events -/
def Spec.after : List Event → Dict Int Nat → Dict Int Nat
  | [], l => l
  | .track id len :: es, l => Spec.after es (l.set id len)
  | .forget id :: es, l => Spec.after es (l.erase id)
  | .batch _ :: es, l => Spec.after es l

/-- The sizes of the batches that are asked for -/
def sizes (es : List Event) : List Nat := es.filterMap fun | .batch k => some k | _ => none

/-! ## Sums over lists -/

theorem tsum_cons {α : Type} (f : List α → ℝ≥0∞) (h : f [] = 0) : ∑' l, f l = ∑' (x : α) (l : List α), f (x :: l) := by
  have hinj : Function.Injective fun p : α × List α => p.1 :: p.2 := by
    rintro ⟨a, b⟩ ⟨c, d⟩ h
    simpa using h
  rw [← hinj.tsum_eq (f := f), ENNReal.tsum_prod']
  intro l hl
  cases l with
  | nil => exact absurd h hl
  | cons x l => exact ⟨(x, l), rfl⟩

theorem tsum_pow {α : Type} (h : α → ℝ≥0∞) (n : Nat) :
    ∑' b : List α, (if b.length = n then (b.map h).prod else 0) = (∑' p, h p) ^ n := by
  induction n with
  | zero =>
    rw [tsum_eq_single [] fun b hb => if_neg fun hl => hb (List.length_eq_zero_iff.1 hl)]
    simp
  | succ n ih =>
    rw [tsum_cons _ (by simp), pow_succ', ← ENNReal.tsum_mul_right]
    refine tsum_congr fun x => ?_
    rw [← ih, ← ENNReal.tsum_mul_left]
    refine tsum_congr fun l => ?_
    simp only [List.length_cons, Nat.add_right_cancel_iff, List.map_cons, List.prod_cons]
    split <;> simp

theorem tsum_le_list {α : Type} (f : α → ℝ≥0∞) (l : List α) (h : ∀ x, x ∉ l → f x = 0) : ∑' x, f x ≤ (l.map f).sum := by
  rw [tsum_eq_sum (s := l.toFinset) fun x hx => h x (by simpa using hx)]
  clear h
  induction l with
  | nil => simp
  | cons x l ih =>
    rw [List.toFinset_cons, List.map_cons, List.sum_cons]
    by_cases hx : x ∈ l.toFinset
    · rw [Finset.insert_eq_of_mem hx]
      exact ih.trans le_add_self
    · rw [Finset.sum_insert hx]
      exact add_le_add le_rfl ih

/-! ## Weights -/

section
variable (w : Dict Int Nat → (Int → Nat) → SamplePoint → ℝ≥0∞)

/-- The product of the weights of all windows after the first `N` batches -/
noncomputable def gain : Nat → List Event → Dict Int Nat → (Int → Nat) → (Int → Nat) → List (List SamplePoint) → ℝ≥0∞
  | _, [], _, _, _, _ => 1
  | N, .track id len :: es, l, visits, _, out => gain N es (l.set id len) visits visits out
  | N, .forget id :: es, l, visits, _, out =>
    gain N es (l.erase id) (fun j => if j = id then 0 else visits j) (fun j => if j = id then 0 else visits j) out
  | _, .batch _ :: _, _, _, _, [] => 1
  | N + 1, .batch _ :: es, l, visits, seen, b :: out => gain N es l (fun j => visits j + (b.filter fun p => p.1 = j).length) seen out
  | 0, .batch _ :: es, l, visits, seen, b :: out =>
    (b.map (w l seen)).prod * gain 0 es l (fun j => visits j + (b.filter fun p => p.1 = j).length) seen out

variable {w}

/-- The sequences could be those of a sampler. -/
structure Fine (tc : Nat) (l : Dict Int Nat) : Prop where
  nodup : l.keys.Nodup
  long : ∀ p ∈ l, tc ≤ p.2 ∧ 0 < p.2

theorem fine_set {tc : Nat} {l : Dict Int Nat} (h : Fine tc l) {id : Int} {len : Nat} (h1 : tc ≤ len) (h2 : 0 < len) : Fine tc (l.set id len) := by
  refine ⟨Dict.nodup_set h.nodup, ?_⟩
  rintro ⟨j, n⟩ hp
  have := Dict.get?_of_mem (Dict.nodup_set h.nodup) hp
  rw [Dict.get?_set] at this
  split at this
  · injection this with this; subst this; exact ⟨h1, h2⟩
  · exact h.long _ (Dict.mem_of_get? this)

theorem fine_erase {tc : Nat} {l : Dict Int Nat} (h : Fine tc l) {id : Int} : Fine tc (l.erase id) := by
  refine ⟨Dict.nodup_erase h.nodup, fun p hp => ?_⟩
  rw [Dict.erase_eq_filter h.nodup] at hp
  exact h.long p (List.mem_filter.1 hp).1

theorem gain_sum {alpha : ℝ} {tc : Nat} (h1 : ∀ l seen, Fine tc l → l ≠ [] → ∑' p, ENNReal.ofReal (windowLaw alpha l seen tc p) ≤ 1)
    (hw : ∀ l seen, Fine tc l → l ≠ [] → ∑' p, ENNReal.ofReal (windowLaw alpha l seen tc p) * w l seen p ≤ 1) :
    ∀ (es : List Event) (N : Nat) (l : Dict Int Nat) (visits seen : Int → Nat), Fine tc l → Valid tc es l →
      ∑' out, law alpha tc es l visits seen out * gain w N es l visits seen out ≤ 1 := by
  intro es
  induction es with
  | nil =>
    intro N l visits seen _ _
    rw [tsum_eq_single [] (by
      intro out h
      cases out with
      | nil => exact absurd rfl h
      | cons b out => simp [law])]
    simp [law, gain]
  | cons e es ih =>
    intro N l visits seen hf hv
    cases e with
    | track id len => simpa only [law, gain] using ih N _ _ _ (fine_set hf hv.2.1 hv.2.2.1) hv.2.2.2
    | forget id => simpa only [law, gain] using ih N _ _ _ (fine_erase hf) hv.2
    | batch count =>
      rw [tsum_cons _ (by simp [law])]
      have key : ∀ (g : SamplePoint → ℝ≥0∞) (N' : Nat), (∑' p, ENNReal.ofReal (windowLaw alpha l seen tc p) * g p ≤ 1) →
          ∑' (b : List SamplePoint) (out : List (List SamplePoint)), (if b.length = count then (b.map fun p => ENNReal.ofReal (windowLaw alpha l seen tc p) * g p).prod else 0) *
            (law alpha tc es l (fun j => visits j + (b.filter fun p => p.1 = j).length) seen out *
              gain w N' es l (fun j => visits j + (b.filter fun p => p.1 = j).length) seen out) ≤ 1 := by
        intro g N' hg
        calc _ = ∑' b : List SamplePoint, (if b.length = count then (b.map fun p => ENNReal.ofReal (windowLaw alpha l seen tc p) * g p).prod else 0) *
              ∑' out, law alpha tc es l (fun j => visits j + (b.filter fun p => p.1 = j).length) seen out *
                gain w N' es l (fun j => visits j + (b.filter fun p => p.1 = j).length) seen out :=
              tsum_congr fun b => ENNReal.tsum_mul_left
          _ ≤ ∑' b : List SamplePoint, (if b.length = count then (b.map fun p => ENNReal.ofReal (windowLaw alpha l seen tc p) * g p).prod else 0) :=
              ENNReal.tsum_le_tsum fun b => mul_le_of_le_one_right (by positivity) (ih N' _ _ _ hf hv.2)
          _ ≤ 1 := by
              rw [tsum_pow]
              exact pow_le_one₀ (by positivity) hg
      cases N with
      | succ N =>
        refine le_trans (le_of_eq ?_) (key (fun _ => 1) N (by simpa using h1 l seen hf hv.1))
        refine tsum_congr fun b => tsum_congr fun out => ?_
        simp only [law, gain, mul_one]
        ring
      | zero =>
        refine le_trans (le_of_eq ?_) (key (w l seen) 0 (hw l seen hf hv.1))
        refine tsum_congr fun b => tsum_congr fun out => ?_
        simp only [law, gain]
        rw [List.prod_map_mul]
        split <;> ring

end

/-! ## The law of one window -/

theorem window_sum {alpha : ℝ} {tc : Nat} {l : Dict Int Nat} {seen : Int → Nat} (hf : Fine tc l) (hne : l ≠ [])
    (g : SamplePoint → ℝ≥0∞) (F : Int × Nat → ℝ) (hF : ∀ p ∈ l, 0 ≤ F p)
    (hg : ∀ p ∈ l, ((List.range (p.2 - tc + 1)).map fun o : Nat => g (p.1, (o : Int), (o : Int) + tc)).sum ≤ ENNReal.ofReal (F p * (p.2 - tc + 1 : ℕ)))
    (hS : (l.map fun p => share alpha seen p * F p).sum ≤ (l.map (share alpha seen)).sum) :
    ∑' p, ENNReal.ofReal (windowLaw alpha l seen tc p) * g p ≤ 1 := by
  have hpos : ∀ p ∈ l, 0 < share alpha seen p := by
    intro p hp
    have : (0 : ℝ) < p.2 := by exact_mod_cast (hf.long p hp).2
    unfold share
    positivity
  have hSp : 0 < (l.map (share alpha seen)).sum := by
    refine List.sum_pos _ ?_ (by simpa using hne)
    intro x hx
    obtain ⟨p, hp, rfl⟩ := List.mem_map.1 hx
    exact hpos p hp
  set S := (l.map (share alpha seen)).sum with hSdef
  have hsupp : ∀ x, x ∉ l.flatMap (fun p => (List.range (p.2 - tc + 1)).map fun o : Nat => ((p.1, (o : Int), (o : Int) + tc) : SamplePoint)) →
      ENNReal.ofReal (windowLaw alpha l seen tc x) * g x = 0 := by
    intro x hx
    have : windowLaw alpha l seen tc x = 0 := by
      unfold windowLaw
      cases hl : l.get? x.1 with
      | none => rfl
      | some len =>
        simp only
        rw [if_neg]
        rintro ⟨a1, a2, a3⟩
        apply hx
        rw [List.mem_flatMap]
        refine ⟨_, Dict.mem_of_get? hl, List.mem_map.2 ⟨x.2.1.toNat, List.mem_range.2 (by simp only; omega), ?_⟩⟩
        exact Prod.ext rfl (Prod.ext (Int.toNat_of_nonneg a1) (by rw [a3]; exact congrArg (· + (tc : Int)) (Int.toNat_of_nonneg a1)))
    rw [this]; simp
  refine le_trans (tsum_le_list _ _ hsupp) ?_
  have hflat : ∀ (l' : Dict Int Nat) (f : SamplePoint → ℝ≥0∞) (k : Int × Nat → List SamplePoint),
      ((l'.flatMap k).map f).sum = (l'.map fun p => ((k p).map f).sum).sum := by
    intro l' f k
    induction l' with
    | nil => simp
    | cons x l' ih => simp [ih]
  rw [hflat]
  have hone : ∀ p ∈ l, ((List.map (fun o : Nat => ((p.1, (o : Int), (o : Int) + tc) : SamplePoint)) (List.range (p.2 - tc + 1))).map fun x =>
      ENNReal.ofReal (windowLaw alpha l seen tc x) * g x).sum ≤ ENNReal.ofReal (share alpha seen p / S * F p) := by
    intro p hp
    have hW : (0 : ℝ) < ((p.2 - tc + 1 : ℕ) : ℝ) := by positivity
    rw [List.map_map]
    have hc : ∀ o ∈ List.range (p.2 - tc + 1), ((fun x => ENNReal.ofReal (windowLaw alpha l seen tc x) * g x) ∘
        fun o : Nat => ((p.1, (o : Int), (o : Int) + tc) : SamplePoint)) o =
        ENNReal.ofReal (share alpha seen p / S * (1 / ((p.2 - tc + 1 : ℕ) : ℝ))) * g (p.1, (o : Int), (o : Int) + tc) := by
      intro o ho
      have ho := List.mem_range.1 ho
      have hlong := (hf.long p hp).1
      simp only [Function.comp]
      congr 2
      unfold windowLaw
      simp only [Dict.get?_of_mem hf.nodup (show (p.1, p.2) ∈ l from hp)]
      rw [if_pos ⟨by omega, by omega, trivial⟩]
    rw [List.map_congr_left hc, List.sum_map_mul_left]
    refine le_trans (mul_le_mul_right (hg p hp) _) ?_
    rw [← ENNReal.ofReal_mul (by have := (hpos p hp).le; positivity)]
    refine ENNReal.ofReal_le_ofReal (le_of_eq ?_)
    field_simp
  refine le_trans (List.sum_le_sum hone) ?_
  have hreal : ∀ l' : List (Int × Nat), (∀ p ∈ l', 0 ≤ share alpha seen p / S * F p) →
      (l'.map fun p => ENNReal.ofReal (share alpha seen p / S * F p)).sum = ENNReal.ofReal (l'.map fun p => share alpha seen p / S * F p).sum := by
    intro l' h
    induction l' with
    | nil => simp
    | cons x l' ih =>
      rw [List.map_cons, List.sum_cons, List.map_cons, List.sum_cons, ih fun p hp => h p (by simp [hp]), ← ENNReal.ofReal_add (h x (by simp))]
      refine List.sum_nonneg fun y hy => ?_
      obtain ⟨p, hp, rfl⟩ := List.mem_map.1 hy
      exact h p (by simp [hp])
  rw [hreal l fun p hp => mul_nonneg (div_nonneg (hpos p hp).le hSp.le) (hF p hp), ← ENNReal.ofReal_one]
  refine ENNReal.ofReal_le_ofReal ?_
  have : (l.map fun p => share alpha seen p / S * F p).sum = (l.map fun p => share alpha seen p * F p).sum / S := by
    have : ∀ l' : List (Int × Nat), (l'.map fun p => share alpha seen p / S * F p).sum = (l'.map fun p => share alpha seen p * F p).sum / S := by
      intro l'
      induction l' with
      | nil => simp
      | cons x l' ih => simp only [List.map_cons, List.sum_cons, ih]; ring
    exact this l
  rw [this, div_le_one hSp]
  exact hS

theorem window_one {alpha : ℝ} {tc : Nat} {l : Dict Int Nat} {seen : Int → Nat} (hf : Fine tc l) (hne : l ≠ []) :
    ∑' p, ENNReal.ofReal (windowLaw alpha l seen tc p) ≤ 1 := by
  have := window_sum (alpha := alpha) (seen := seen) hf hne (fun _ => 1) (fun _ => 1) (fun _ _ => zero_le_one) (fun p _ => by
    rw [one_mul, ENNReal.ofReal_natCast, List.map_const', List.sum_replicate, List.length_range, nsmul_eq_mul, mul_one]) (by simp)
  simpa using this

/-! ## Two weights -/

section
variable (id : Int)

/-- The sequence is not drawn. -/
noncomputable def w1 (C K : Nat) (c : ℝ) (l : Dict Int Nat) (seen : Int → Nat) (p : SamplePoint) : ℝ≥0∞ :=
  if (∃ len, l.get? id = some len) ∧ l.values.sum ≤ C ∧ seen id ≤ K then (if p.1 = id then 0 else ENNReal.ofReal c) else 1

/-- The sequence is drawn, but not this window. -/
noncomputable def w2 (len : Nat) (x : SamplePoint) (c : ℝ) (l : Dict Int Nat) (_ : Int → Nat) (p : SamplePoint) : ℝ≥0∞ :=
  if l.get? id = some len then (if p = x then 0 else if p.1 = id then ENNReal.ofReal c else 1) else 1

variable {id}

theorem sum_without (f : Int × Nat → ℝ) {c : ℝ} (hc : 0 ≤ c) {len : Nat} : ∀ l : List (Int × Nat), (∀ p ∈ l, 0 ≤ f p) → (id, len) ∈ l →
    (l.map fun p => f p * if p.1 = id then 0 else c).sum + c * f (id, len) ≤ c * (l.map f).sum := by
  have hle : ∀ l : List (Int × Nat), (∀ p ∈ l, 0 ≤ f p) → (l.map fun p => f p * if p.1 = id then 0 else c).sum ≤ c * (l.map f).sum := by
    intro l hl
    induction l with
    | nil => simp
    | cons x l ih =>
      have h1 := hl x (by simp)
      have h2 := ih fun p hp => hl p (by simp [hp])
      simp only [List.map_cons, List.sum_cons]
      split <;> nlinarith [mul_nonneg hc h1]
  intro l hl hm
  induction l with
  | nil => simp at hm
  | cons x l ih =>
    have h1 := hl x (by simp)
    simp only [List.map_cons, List.sum_cons]
    rcases List.mem_cons.1 hm with rfl | hm
    · have := hle l fun p hp => hl p (by simp [hp])
      simp only [if_true]
      linarith
    · have := ih (fun p hp => hl p (by simp [hp])) hm
      split <;> nlinarith [mul_nonneg hc h1]

theorem w1_sum {alpha : ℝ} (ha : 0 ≤ alpha) {tc C K : Nat} {q c : ℝ} (hq : q = 1 / (2 * (C + 1) * ((K : ℝ) + 1) ^ alpha)) (hc : c = 1 / (1 - q))
    (l : Dict Int Nat) (seen : Int → Nat) (hf : Fine tc l) (hne : l ≠ []) :
    ∑' p, ENNReal.ofReal (windowLaw alpha l seen tc p) * w1 id C K c l seen p ≤ 1 := by
  by_cases h : (∃ len, l.get? id = some len) ∧ l.values.sum ≤ C ∧ seen id ≤ K
  · obtain ⟨⟨len, hlen⟩, hC, hK⟩ := h
    have hmem := Dict.mem_of_get? hlen
    have hKp : (1 : ℝ) ≤ ((K : ℝ) + 1) ^ alpha := Real.one_le_rpow (by have : (0 : ℝ) ≤ K := by positivity
                                                                       linarith) ha
    have hCp : (0 : ℝ) ≤ C := by positivity
    have hq0 : 0 < q := by rw [hq]; positivity
    have hq1 : q < 1 := by
      rw [hq, div_lt_one (by positivity)]
      nlinarith
    have hc0 : 0 ≤ c := by rw [hc]; exact div_nonneg one_pos.le (by linarith)
    have hsp : ∀ p ∈ l, 0 ≤ share alpha seen p := fun p _ => by unfold share; positivity
    refine window_sum hf hne _ (fun p => if p.1 = id then 0 else c) (fun p _ => by split <;> [exact le_rfl; exact hc0]) (fun p _ => ?_) ?_
    · simp only [w1, if_pos (show (∃ len, l.get? id = some len) ∧ l.values.sum ≤ C ∧ seen id ≤ K from ⟨⟨len, hlen⟩, hC, hK⟩)]
      by_cases hp : p.1 = id
      · simp [hp]
      · simp only [hp, if_false]
        rw [List.map_const', List.sum_replicate, List.length_range, nsmul_eq_mul, ENNReal.ofReal_mul hc0, ENNReal.ofReal_natCast, mul_comm]
    · have h1 := sum_without (id := id) (share alpha seen) hc0 l hsp hmem
      have h2 : (l.map (share alpha seen)).sum ≤ C := by
        have h3 : (l.map (share alpha seen)).sum ≤ (l.map fun p => (p.2 : ℝ)).sum := List.sum_le_sum fun p _ => by
          unfold share
          have : (1 : ℝ) ≤ ((seen p.1 : ℝ) + 1) ^ alpha := Real.one_le_rpow (by have : (0 : ℝ) ≤ seen p.1 := by positivity
                                                                                linarith) ha
          exact div_le_self (by positivity) this
        have h4 : (l.map fun p => (p.2 : ℝ)).sum = ((l.values.sum : ℕ) : ℝ) := by
          rw [Dict.values, Nat.cast_list_sum, List.map_map]; rfl
        rw [h4] at h3
        exact h3.trans (by exact_mod_cast hC)
      have h5 : q * C ≤ share alpha seen (id, len) := by
        have hlen1 : (1 : ℝ) ≤ len := by exact_mod_cast (hf.long _ hmem).2
        have hsK : ((seen id : ℝ) + 1) ^ alpha ≤ ((K : ℝ) + 1) ^ alpha := Real.rpow_le_rpow (by positivity) (by
          have : (seen id : ℝ) ≤ K := by exact_mod_cast hK
          linarith) ha
        have hsp : 0 < ((seen id : ℝ) + 1) ^ alpha := by positivity
        calc q * C ≤ 1 / ((K : ℝ) + 1) ^ alpha := by
              rw [hq, div_mul_eq_mul_div, one_mul, div_le_div_iff₀ (by positivity) (by positivity)]
              nlinarith
          _ ≤ share alpha seen (id, len) := by
              unfold share
              rw [div_le_div_iff₀ (by positivity) hsp]
              simp only
              nlinarith
      have hS0 : 0 ≤ (l.map (share alpha seen)).sum := List.sum_nonneg fun x hx => by
        obtain ⟨p, hp, rfl⟩ := List.mem_map.1 hx
        exact hsp p hp
      have h6 : q * (l.map (share alpha seen)).sum ≤ share alpha seen (id, len) := (mul_le_mul_of_nonneg_left h2 hq0.le).trans h5
      have h7 : c * ((l.map (share alpha seen)).sum - share alpha seen (id, len)) ≤ c * ((1 - q) * (l.map (share alpha seen)).sum) :=
        mul_le_mul_of_nonneg_left (by linarith) hc0
      have h8 : c * ((1 - q) * (l.map (share alpha seen)).sum) = (l.map (share alpha seen)).sum := by
        rw [hc]
        have : 1 - q ≠ 0 := by linarith
        field_simp
      linarith
  · simp only [w1, if_neg h, mul_one]
    exact window_one hf hne

theorem sum_except {W o : Nat} (ho : o < W) (x : ℝ≥0∞) :
    ((List.range W).map fun o' => if o' = o then 0 else x).sum = ((W - 1 : ℕ) : ℝ≥0∞) * x := by
  have h : ((List.range W).map fun o' => if o' = o then 0 else x).sum = ∑ o' ∈ Finset.range W, if o' = o then 0 else x := rfl
  rw [h, Finset.sum_ite, Finset.sum_const_zero, zero_add, Finset.sum_const, nsmul_eq_mul, Finset.filter_ne',
    Finset.card_erase_of_mem (Finset.mem_range.2 ho), Finset.card_range]

theorem w2_sum {alpha : ℝ} {tc len o : Nat} (ho : o < len - tc + 1) {c : ℝ} (hc : c = if len - tc = 0 then 2 else ((len - tc + 1 : ℕ) : ℝ) / ((len - tc : ℕ) : ℝ))
    (l : Dict Int Nat) (seen : Int → Nat) (hf : Fine tc l) (hne : l ≠ []) :
    ∑' p, ENNReal.ofReal (windowLaw alpha l seen tc p) * w2 id len (id, (o : Int), (o : Int) + tc) c l seen p ≤ 1 := by
  by_cases h : l.get? id = some len
  · refine window_sum hf hne _ (fun _ => 1) (fun _ _ => zero_le_one) (fun p hp => ?_) (by simp)
    rw [one_mul, ENNReal.ofReal_natCast]
    simp only [w2, if_pos h]
    by_cases hpid : p.1 = id
    · have hp2 : p.2 = len := by
        have := Dict.get?_of_mem hf.nodup (show (p.1, p.2) ∈ l from hp)
        rw [hpid, h] at this
        injection this with this
        exact this.symm
      rw [hpid, hp2]
      have hfun : (fun o' : Nat => if ((id, (o' : Int), (o' : Int) + tc) : SamplePoint) = (id, (o : Int), (o : Int) + tc) then (0 : ℝ≥0∞) else
          if (id, (o' : Int), (o' : Int) + tc).1 = id then ENNReal.ofReal c else 1) = fun o' => if o' = o then 0 else ENNReal.ofReal c := by
        funext o'
        by_cases hoo : o' = o
        · simp [hoo]
        · have : ((id, (o' : Int), (o' : Int) + tc) : SamplePoint) ≠ (id, (o : Int), (o : Int) + tc) := by
            intro hh
            simp only [Prod.mk.injEq, Nat.cast_inj, true_and] at hh
            exact hoo hh.1
          simp [this, hoo]
      rw [hfun, sum_except ho, Nat.add_sub_cancel, hc]
      by_cases hz : len - tc = 0
      · simp [hz]
      · rw [if_neg hz, ← ENNReal.ofReal_natCast (len - tc), ← ENNReal.ofReal_mul (by positivity), ← ENNReal.ofReal_natCast]
        refine ENNReal.ofReal_le_ofReal (le_of_eq ?_)
        have : ((len - tc : ℕ) : ℝ) ≠ 0 := by exact_mod_cast hz
        field_simp
    · have hfun : (fun o' : Nat => if ((p.1, (o' : Int), (o' : Int) + tc) : SamplePoint) = (id, (o : Int), (o : Int) + tc) then (0 : ℝ≥0∞) else
          if (p.1, (o' : Int), (o' : Int) + tc).1 = id then ENNReal.ofReal c else 1) = fun _ => 1 := by
        funext o'
        have : ((p.1, (o' : Int), (o' : Int) + tc) : SamplePoint) ≠ (id, (o : Int), (o : Int) + tc) := fun hh => hpid (congrArg Prod.fst hh)
        simp [this, hpid]
      rw [hfun, List.map_const', List.sum_replicate, List.length_range, nsmul_eq_mul, mul_one]
  · simp only [w2, if_neg h, mul_one]
    exact window_one hf hne

/-! ## Lower bounds -/

/-- The condition holds for what is stored at all batches after the first `N` ones. -/
def Stays (P : Dict Int Nat → Prop) : Nat → List Event → Dict Int Nat → Prop
  | _, [], _ => True
  | N, .track id len :: es, l => Stays P N es (l.set id len)
  | N, .forget id :: es, l => Stays P N es (l.erase id)
  | N + 1, .batch _ :: es, l => Stays P N es l
  | 0, .batch _ :: es, l => P l ∧ Stays P 0 es l

/-- How many windows there were in these batches -/
def total (f : List SamplePoint → Nat) (out : List (List SamplePoint)) : Nat := (out.map f).sum

theorem filter_zero {b : List SamplePoint} (h : ∀ p ∈ b, p.1 ≠ id) : (b.filter fun p => p.1 = id).length = 0 := by
  rw [List.length_eq_zero_iff, List.filter_eq_nil_iff]
  intro p hp
  simpa using h p hp

theorem gain1 {alpha : ℝ} {tc C K : Nat} {c : ℝ} : ∀ (es : List Event) (N : Nat) (l : Dict Int Nat) (visits seen : Int → Nat) (out : List (List SamplePoint)),
    law alpha tc es l visits seen out ≠ 0 → Stays (fun l => (∃ len, l.get? id = some len) ∧ l.values.sum ≤ C) N es l →
    visits id + total List.length (out.take N) ≤ K → seen id ≤ K → (∀ b ∈ out.drop N, ∀ p ∈ b, p.1 ≠ id) →
    ENNReal.ofReal c ^ total List.length (out.drop N) ≤ gain (w1 id C K c) N es l visits seen out := by
  intro es
  induction es with
  | nil =>
    intro N l visits seen out hl _ _ _ _
    cases out with
    | nil => simp [total, gain]
    | cons b out => simp [law] at hl
  | cons e es ih =>
    intro N l visits seen out hl hs hK hseen hno
    cases e with
    | track j len =>
      simp only [law] at hl
      simp only [gain]
      exact ih N _ _ _ out hl hs hK (by omega) hno
    | forget j =>
      simp only [law] at hl
      simp only [gain]
      refine ih N _ _ _ out hl hs ?_ ?_ hno <;> split <;> omega
    | batch count =>
      cases out with
      | nil => simp [law] at hl
      | cons b out =>
        simp only [law] at hl
        have hl2 := right_ne_zero_of_mul hl
        cases N with
        | succ N =>
          simp only [gain, List.drop_succ_cons] at hno ⊢
          refine ih N _ _ _ out hl2 hs ?_ hseen hno
          simp only [List.take_succ_cons, total, List.map_cons, List.sum_cons] at hK ⊢
          have := List.length_filter_le (fun p : SamplePoint => decide (p.1 = id)) b
          omega
        | zero =>
          simp only [List.drop_zero] at hno ⊢
          have hb := hno b (by simp)
          have hrec := ih 0 l (fun j => visits j + (b.filter fun p => p.1 = j).length) seen out hl2 hs.2 (by
            simp only [List.take_zero, total, List.map_nil, List.sum_nil] at hK ⊢
            rw [filter_zero hb]; omega) hseen fun b' hb' => hno b' (by simp [by simpa using hb'])
          simp only [gain]
          have hprod : (b.map (w1 id C K c l seen)).prod = ENNReal.ofReal c ^ b.length := by
            rw [List.map_congr_left (g := fun _ => ENNReal.ofReal c) fun p hp => by
              rw [w1, if_pos ⟨hs.1.1, hs.1.2, hseen⟩, if_neg (hb p hp)]]
            simp
          rw [hprod]
          simp only [total, List.map_cons, List.sum_cons, pow_add, List.drop_zero] at hrec ⊢
          exact mul_le_mul_right hrec _

theorem gain2 {alpha : ℝ} {tc len : Nat} {x : SamplePoint} {c : ℝ} : ∀ (es : List Event) (N : Nat) (l : Dict Int Nat) (visits seen : Int → Nat)
    (out : List (List SamplePoint)), law alpha tc es l visits seen out ≠ 0 → Stays (fun l => l.get? id = some len) N es l →
    (∀ b ∈ out.drop N, ∀ p ∈ b, p ≠ x) →
    ENNReal.ofReal c ^ total (fun b => (b.filter fun p => p.1 = id).length) (out.drop N) ≤ gain (w2 id len x c) N es l visits seen out := by
  intro es
  induction es with
  | nil =>
    intro N l visits seen out hl _ _
    cases out with
    | nil => simp [total, gain]
    | cons b out => simp [law] at hl
  | cons e es ih =>
    intro N l visits seen out hl hs hno
    cases e with
    | track j len =>
      simp only [law] at hl
      simp only [gain]
      exact ih N _ _ _ out hl hs hno
    | forget j =>
      simp only [law] at hl
      simp only [gain]
      exact ih N _ _ _ out hl hs hno
    | batch count =>
      cases out with
      | nil => simp [law] at hl
      | cons b out =>
        simp only [law] at hl
        have hl2 := right_ne_zero_of_mul hl
        cases N with
        | succ N =>
          simp only [gain, List.drop_succ_cons] at hno ⊢
          exact ih N _ _ _ out hl2 hs hno
        | zero =>
          simp only [List.drop_zero] at hno ⊢
          have hb := hno b (by simp)
          have hrec := ih 0 l (fun j => visits j + (b.filter fun p => p.1 = j).length) seen out hl2 hs.2
            fun b' hb' => hno b' (by simp [by simpa using hb'])
          simp only [gain]
          have hprod : (b.map (w2 id len x c l seen)).prod = ENNReal.ofReal c ^ (b.filter fun p => p.1 = id).length := by
            rw [List.map_congr_left (g := fun p => if p.1 = id then ENNReal.ofReal c else 1) fun p hp => by
              rw [w2, if_pos hs.1, if_neg (hb p hp)]]
            clear hl hl2 hno hb hrec
            induction b with
            | nil => simp
            | cons p b ihb =>
              rw [List.map_cons, List.prod_cons, ihb, List.filter_cons]
              by_cases hp : p.1 = id
              · simp [hp, pow_succ']
              · simp [hp]
          rw [hprod]
          simp only [total, List.map_cons, List.sum_cons, pow_add, List.drop_zero] at hrec ⊢
          exact mul_le_mul_right hrec _

end

/-! ## With probability one -/

theorem rare {alpha : ℝ} {tc : Nat} {w : Dict Int Nat → (Int → Nat) → SamplePoint → ℝ≥0∞}
    (hw : ∀ l seen, Fine tc l → l ≠ [] → ∑' p, ENNReal.ofReal (windowLaw alpha l seen tc p) * w l seen p ≤ 1) {es : List Event} (hv : Valid tc es [])
    (N M : Nat) {c : ℝ} (hc : 1 < c) (Bad : List (List SamplePoint) → Prop)
    (hb : ∀ out, Bad out → law alpha tc es [] (fun _ => 0) (fun _ => 0) out ≠ 0 → ENNReal.ofReal c ^ M ≤ gain w N es [] (fun _ => 0) (fun _ => 0) out) :
    generators {x | ∃ out, run alpha tc x.1 x.2 es {} 0 = .ok out ∧ Bad out} ≤ (ENNReal.ofReal c ^ M)⁻¹ := by
  have hf : Fine tc [] := ⟨by simp [Dict.keys], by simp⟩
  have hsum := gain_sum (fun l seen h1 h2 => window_one (alpha := alpha) (seen := seen) h1 h2) hw es N [] (fun _ => 0) (fun _ => 0) hf hv
  have hset : {x : (Nat → ℝ) × (Nat → ℝ) | ∃ out, run alpha tc x.1 x.2 es {} 0 = .ok out ∧ Bad out} =
      ⋃ out, {x | run alpha tc x.1 x.2 es {} 0 = .ok out ∧ Bad out} := by
    ext x; simp
  rw [hset, ENNReal.le_inv_iff_mul_le]
  refine le_trans (mul_le_mul_left (measure_iUnion_le _) _) ?_
  rw [← ENNReal.tsum_mul_right]
  refine le_trans (ENNReal.tsum_le_tsum fun out => ?_) hsum
  by_cases hbo : Bad out
  · have h1 : {x : (Nat → ℝ) × (Nat → ℝ) | run alpha tc x.1 x.2 es {} 0 = .ok out ∧ Bad out} = {x | run alpha tc x.1 x.2 es {} 0 = .ok out} := by
      ext x; simp [hbo]
    rw [h1, C154 alpha hv out]
    by_cases hz : law alpha tc es [] (fun _ => 0) (fun _ => 0) out = 0
    · rw [hz]; simp
    · exact mul_le_mul_right (hb out hbo hz) _
  · simp [hbo]

theorem never {μ : Measure ((Nat → ℝ) × (Nat → ℝ))} {c : ℝ} (hc : 1 < c) (B : Nat → Nat → (Nat → ℝ) × (Nat → ℝ) → Prop)
    (h : ∀ M n, μ {x | B M n x} ≤ (ENNReal.ofReal c ^ M)⁻¹) : ∀ᵐ x ∂μ, ¬ ∀ M, ∀ᶠ n in atTop, B M n x := by
  rw [ae_iff]
  have hle : ∀ M : Nat, μ {x | ¬ ¬ ∀ M, ∀ᶠ n in atTop, B M n x} ≤ (ENNReal.ofReal c ^ M)⁻¹ := by
    intro M
    have hmono : Monotone fun m => ⋂ n ≥ m, {x | B M n x} :=
      fun m m' hm => Set.biInter_mono (fun n (hn : m' ≤ n) => le_trans hm hn) fun n _ => le_rfl
    have hsub : {x | ¬ ¬ ∀ M, ∀ᶠ n in atTop, B M n x} ⊆ ⋃ m, ⋂ n ≥ m, {x | B M n x} := by
      intro x hx
      simp only [Set.mem_setOf_eq, not_not] at hx
      obtain ⟨m, hm⟩ := eventually_atTop.1 (hx M)
      exact Set.mem_iUnion.2 ⟨m, by simp only [Set.mem_iInter]; exact fun n hn => hm n hn⟩
    refine le_trans (measure_mono hsub) ?_
    rw [hmono.measure_iUnion]
    refine iSup_le fun m => le_trans (measure_mono ?_) (h M m)
    intro x hx
    simp only [Set.mem_iInter] at hx
    exact hx m le_rfl
  have hlim : Tendsto (fun M : Nat => (ENNReal.ofReal c ^ M)⁻¹) atTop (𝓝 0) := by
    have h1 : (ENNReal.ofReal c)⁻¹ < 1 := by
      rw [ENNReal.inv_lt_one, ENNReal.one_lt_ofReal]
      exact hc
    simpa [ENNReal.inv_pow] using ENNReal.tendsto_pow_atTop_nhds_zero_of_lt_one h1
  exact le_antisymm (ge_of_tendsto' hlim hle) (by positivity)

/-! ## Histories without end -/

theorem stays_of {P : Dict Int Nat → Prop} : ∀ (es : List Event) (N : Nat) (l : Dict Int Nat),
    (∀ es1 k es2, es = es1 ++ .batch k :: es2 → N ≤ es1.length → P (Spec.after es1 l)) → Stays P N es l := by
  intro es
  induction es with
  | nil => intro N l _; simp [Stays]
  | cons e es ih =>
    intro N l h
    cases e with
    | track id len =>
      exact ih N _ fun es1 k es2 he hN => h (.track id len :: es1) k es2 (by rw [he]; rfl) (by simp; omega)
    | forget id =>
      exact ih N _ fun es1 k es2 he hN => h (.forget id :: es1) k es2 (by rw [he]; rfl) (by simp; omega)
    | batch count =>
      cases N with
      | succ N => exact ih N _ fun es1 k es2 he hN => h (.batch count :: es1) k es2 (by rw [he]; rfl) (by simp; omega)
      | zero =>
        exact ⟨h [] count es rfl (by simp), ih 0 _ fun es1 k es2 he hN => h (.batch count :: es1) k es2 (by rw [he]; rfl) (by simp)⟩

theorem run_prefix {alpha : ℝ} {tc : Int} {u v : Nat → ℝ} (es' : List Event) : ∀ (es : List Event) {s : Coverage} {i : Nat} {out' : List (List SamplePoint)},
    run alpha tc u v (es ++ es') s i = .ok out' → ∃ out, run alpha tc u v es s i = .ok out ∧ out <+: out' := by
  intro es
  induction es with
  | nil => intro s i out' _; exact ⟨[], rfl, List.nil_prefix⟩
  | cons e es ih =>
    intro s i out' h
    cases e with
    | track id len =>
      simp only [List.cons_append, run] at h ⊢
      rcases hst : s.track id len with ⟨s', r⟩
      rw [hst] at h
      cases r with
      | error e => simp at h
      | ok _ => exact ih h
    | forget id =>
      simp only [List.cons_append, run] at h ⊢
      rcases hst : s.forget id with ⟨s', r⟩
      rw [hst] at h
      cases r with
      | error e => simp at h
      | ok _ => exact ih h
    | batch count =>
      simp only [List.cons_append, run] at h ⊢
      rcases hst : Verif.CoverageRun.sample alpha s count tc u v i with ⟨s', r⟩
      rw [hst] at h
      cases r with
      | error e => simp at h
      | ok pts =>
        simp only at h ⊢
        cases hr : run alpha tc u v (es ++ es') s' (i + count) with
        | error e => rw [hr] at h; simp at h
        | ok rest =>
          rw [hr] at h
          simp only [Except.ok.injEq] at h
          obtain ⟨out, h1, h2⟩ := ih hr
          rw [h1]
          exact ⟨pts :: out, rfl, by rw [← h]; simpa using h2⟩

theorem law_sizes {alpha : ℝ} {tc : Nat} : ∀ (es : List Event) (l : Dict Int Nat) (visits seen : Int → Nat) (out : List (List SamplePoint)),
    law alpha tc es l visits seen out ≠ 0 → out.map List.length = sizes es := by
  intro es
  induction es with
  | nil =>
    intro l visits seen out h
    cases out with
    | nil => rfl
    | cons b out => simp [law] at h
  | cons e es ih =>
    intro l visits seen out h
    cases e with
    | track id len => simp only [law] at h; exact ih _ _ _ _ h
    | forget id => simp only [law] at h; exact ih _ _ _ _ h
    | batch count =>
      cases out with
      | nil => simp [law] at h
      | cons b out =>
        simp only [law] at h
        have h1 := left_ne_zero_of_mul h
        have h2 : b.length = count := by
          by_contra hn
          exact h1 (if_neg hn)
        rw [List.map_cons, ih _ _ _ _ (right_ne_zero_of_mul h), h2]
        rfl

section
variable (ev : Nat → Event)

/-- The first events -/
def first (n : Nat) : List Event := (List.range n).map ev

theorem first_succ (n : Nat) : first ev (n + 1) = first ev n ++ [ev n] := by simp [first, List.range_succ]

theorem first_add (n k : Nat) : ∃ es, first ev (n + k) = first ev n ++ es := by
  induction k with
  | zero => exact ⟨[], by simp⟩
  | succ k ih =>
    obtain ⟨es, h⟩ := ih
    exact ⟨es ++ [ev (n + k)], by rw [show n + (k + 1) = n + k + 1 by omega, first_succ, h, List.append_assoc]⟩

theorem first_take {n : Nat} {es1 es2 : List Event} (h : first ev n = es1 ++ es2) : es1 = first ev es1.length := by
  have hle : es1.length ≤ n := by
    have := congrArg List.length h
    simp [first] at this
    omega
  have := congrArg (List.take es1.length) h
  rw [List.take_left, first, ← List.map_take, List.take_range, min_eq_left hle] at this
  exact this.symm

/-- The batches of the first events -/
noncomputable def outOf (alpha : ℝ) (tc : Nat) (x : (Nat → ℝ) × (Nat → ℝ)) (n : Nat) : List (List SamplePoint) :=
  match run alpha tc x.1 x.2 (first ev n) {} 0 with
  | .ok out => out
  | .error _ => []

variable {ev} {alpha : ℝ} {tc : Nat}

/-- With probability one nothing goes wrong. -/
theorem usual (hv : ∀ n, Valid tc (first ev n) []) : ∀ᵐ x ∂generators, ∀ n, run alpha tc x.1 x.2 (first ev n) {} 0 = .ok (outOf ev alpha tc x n) ∧
    law alpha tc (first ev n) [] (fun _ => 0) (fun _ => 0) (outOf ev alpha tc x n) ≠ 0 := by
  have h1 : ∀ᵐ x ∂generators, ∀ k, x.1 k ∈ Set.Ico (0 : ℝ) 1 := by
    have := (Measure.quasiMeasurePreserving_fst (μ := Measure.infinitePi fun _ : Nat => unit) (ν := Measure.infinitePi fun _ : Nat => unit)).ae
      EjectLaw.ae_unit
    exact this
  have h2 : ∀ᵐ x ∂generators, ∀ (n : Nat) (out : List (List SamplePoint)), run alpha tc x.1 x.2 (first ev n) {} 0 = .ok out →
      law alpha tc (first ev n) [] (fun _ => 0) (fun _ => 0) out ≠ 0 := by
    rw [ae_all_iff]; intro n
    rw [ae_all_iff]; intro out
    rw [ae_iff]
    by_cases hz : law alpha tc (first ev n) [] (fun _ => 0) (fun _ => 0) out = 0
    · refine le_antisymm (le_trans (measure_mono (t := {x | run alpha tc x.1 x.2 (first ev n) {} 0 = .ok out}) ?_)
        (by rw [C154 alpha (hv n) out, hz])) (by positivity)
      intro x hx
      exact (Classical.not_imp.1 hx).1
    · simp [hz]
  filter_upwards [h1, h2] with x hx1 hx2 n
  obtain ⟨out, ho⟩ := C154_succeeds alpha (hv n) (u := x.1) (v := x.2) hx1
  have : outOf ev alpha tc x n = out := by rw [outOf, ho]
  rw [this]
  exact ⟨ho, hx2 n out ho⟩

/-- The batches -/
noncomputable def batchesOf (ev : Nat → Event) (alpha : ℝ) (tc : Nat) (x : (Nat → ℝ) × (Nat → ℝ)) (j : Nat) : List SamplePoint :=
  if h : ∃ n, j < (outOf ev alpha tc x n).length then (outOf ev alpha tc x (Nat.find h))[j]'(Nat.find_spec h) else []

theorem out_eq {x : (Nat → ℝ) × (Nat → ℝ)} (hx : ∀ n, run alpha tc x.1 x.2 (first ev n) {} 0 = .ok (outOf ev alpha tc x n)) (n : Nat) :
    outOf ev alpha tc x n = (List.range (outOf ev alpha tc x n).length).map (batchesOf ev alpha tc x) := by
  have hpre : ∀ n k, outOf ev alpha tc x n <+: outOf ev alpha tc x (n + k) := by
    intro n k
    obtain ⟨es, he⟩ := first_add ev n k
    have h := hx (n + k)
    rw [he] at h
    obtain ⟨out, h1, h2⟩ := run_prefix es (first ev n) h
    rw [hx n] at h1
    injection h1 with h1
    rwa [h1]
  have hget : ∀ n n' j (h : j < (outOf ev alpha tc x n).length) (h' : j < (outOf ev alpha tc x n').length),
      (outOf ev alpha tc x n)[j] = (outOf ev alpha tc x n')[j] := by
    intro n n' j h h'
    rcases le_total n n' with hnn | hnn
    · obtain ⟨k, rfl⟩ := Nat.exists_eq_add_of_le hnn
      exact (hpre n k).getElem h
    · obtain ⟨k, rfl⟩ := Nat.exists_eq_add_of_le hnn
      exact ((hpre n' k).getElem h').symm
  refine List.ext_getElem (by simp) fun j h1 h2 => ?_
  rw [List.getElem_map, List.getElem_range, batchesOf, dif_pos ⟨n, h1⟩]
  exact hget _ _ _ _ _

theorem often (hinf : ∃ᶠ n in atTop, ∃ k, 0 < k ∧ ev n = .batch k) (N : Nat) : ∃ n k, N ≤ (sizes (first ev n)).length ∧ 0 < k ∧ ev n = .batch k := by
  rw [frequently_atTop] at hinf
  have hex : ∀ N, ∃ n, N ≤ (sizes (first ev n)).length := by
    intro N
    induction N with
    | zero => exact ⟨0, Nat.zero_le _⟩
    | succ N ih =>
      obtain ⟨n, hn⟩ := ih
      obtain ⟨n', hn', k, hk, he⟩ := hinf n
      obtain ⟨d, rfl⟩ := Nat.exists_eq_add_of_le hn'
      obtain ⟨es, hes⟩ := first_add ev n d
      refine ⟨n + d + 1, ?_⟩
      rw [first_succ, hes, he]
      simp only [sizes, List.filterMap_append, List.length_append] at hn ⊢
      simp
      omega
  obtain ⟨n, hn⟩ := hex N
  obtain ⟨n', hn', k, hk, he⟩ := hinf n
  obtain ⟨d, rfl⟩ := Nat.exists_eq_add_of_le hn'
  obtain ⟨es, hes⟩ := first_add ev n d
  refine ⟨n + d, k, ?_, hk, he⟩
  rw [hes]
  simp only [sizes, List.filterMap_append, List.length_append] at hn ⊢
  omega

/-- What happens again and again is counted without end. -/
theorem unbounded {β : Type} (f : β → Nat) (b : Nat → β) (h : ∃ᶠ j in atTop, 0 < f (b j)) (N M : Nat) :
    ∃ m0, ∀ m, m0 ≤ m → M ≤ ((((List.range m).map b).drop N).map f).sum := by
  rw [frequently_atTop] at h
  have hstep : ∀ m, N ≤ m → ((((List.range (m + 1)).map b).drop N).map f).sum = ((((List.range m).map b).drop N).map f).sum + f (b m) := by
    intro m hm
    rw [List.range_succ, List.map_append, List.drop_append_of_le_length (by simpa using hm)]
    simp
  have hmono : ∀ m k, N ≤ m → ((((List.range m).map b).drop N).map f).sum ≤ ((((List.range (m + k)).map b).drop N).map f).sum := by
    intro m k hm
    induction k with
    | zero => exact le_rfl
    | succ k ih => rw [show m + (k + 1) = m + k + 1 by omega, hstep _ (by omega)]; omega
  have hex : ∃ m, N ≤ m ∧ M ≤ ((((List.range m).map b).drop N).map f).sum := by
    induction M with
    | zero => exact ⟨N, le_rfl, Nat.zero_le _⟩
    | succ M ih =>
      obtain ⟨m, hm, hM⟩ := ih
      obtain ⟨j, hj, hp⟩ := h m
      obtain ⟨d, rfl⟩ := Nat.exists_eq_add_of_le hj
      refine ⟨m + d + 1, by omega, ?_⟩
      have := hmono m d hm
      rw [hstep _ (by omega)]
      omega
  obtain ⟨m0, h1, h2⟩ := hex
  refine ⟨m0, fun m hm => ?_⟩
  obtain ⟨d, rfl⟩ := Nat.exists_eq_add_of_le hm
  exact h2.trans (hmono m0 d h1)

theorem mem_drop {β : Type} {b : Nat → β} {m N : Nat} {y : β} (h : y ∈ ((List.range m).map b).drop N) : ∃ j, N ≤ j ∧ y = b j := by
  obtain ⟨i, hi, rfl⟩ := List.getElem_of_mem h
  refine ⟨N + i, by omega, ?_⟩
  simp

/-- **C167**: Over any history without end of a coverage-based sampler in a bounded memory, in which something is drawn again and again, with
probability one every window of every sequence that stays is drawn again and again. -/
theorem C167 (ha : 0 ≤ alpha) {ev : Nat → Event} (hv : ∀ n, Valid tc ((List.range n).map ev) []) {C : Nat}
    (hC : ∀ n, (Spec.after ((List.range n).map ev) []).values.sum ≤ C) (hinf : ∃ᶠ n in atTop, ∃ k, 0 < k ∧ ev n = .batch k) :
    ∀ᵐ x ∂generators, ∃ batches : Nat → List SamplePoint,
      (∀ n, ∃ m, run alpha tc x.1 x.2 ((List.range n).map ev) {} 0 = .ok ((List.range m).map batches) ∧
        ((List.range m).map batches).map List.length = sizes ((List.range n).map ev)) ∧
      ∀ (id : Int) (len : Nat), (∀ᶠ n in atTop, (Spec.after ((List.range n).map ev) []).get? id = some len) →
        ∀ o : Nat, o + tc ≤ len → ∃ᶠ j in atTop, (id, (o : Int), (o : Int) + tc) ∈ batches j := by
  have hstay : ∀ (P : Dict Int Nat → Prop) (N n : Nat), (∀ m, N ≤ m → P (Spec.after (first ev m) [])) → Stays P N (first ev n) [] := by
    intro P N n h
    refine stays_of _ _ _ fun es1 k es2 he hN => ?_
    rw [first_take ev he]
    exact h _ hN
  have h1 : ∀ᵐ x ∂generators, ∀ (id : Int) (len n0 : Nat), (∀ n, n0 ≤ n → (Spec.after (first ev n) []).get? id = some len) →
      ∀ (N K : Nat), n0 ≤ N → ¬ ∀ M, ∀ᶠ n in atTop, ∃ out, run alpha tc x.1 x.2 (first ev n) {} 0 = .ok out ∧
        ((∀ b ∈ out.drop N, ∀ p ∈ b, p.1 ≠ id) ∧ total List.length (out.take N) ≤ K ∧ M ≤ total List.length (out.drop N)) := by
    rw [ae_all_iff]; intro id
    rw [ae_all_iff]; intro len
    rw [ae_all_iff]; intro n0
    rw [eventually_imp_distrib_left]; intro hs
    rw [ae_all_iff]; intro N
    rw [ae_all_iff]; intro K
    rw [eventually_imp_distrib_left]; intro hN
    have hKp : (1 : ℝ) ≤ ((K : ℝ) + 1) ^ alpha := Real.one_le_rpow (by have : (0 : ℝ) ≤ K := by positivity
                                                                       linarith) ha
    have hCp : (0 : ℝ) ≤ C := by positivity
    have hq0 : 0 < 1 / (2 * (C + 1) * ((K : ℝ) + 1) ^ alpha) := by positivity
    have hq1 : 1 / (2 * (C + 1) * ((K : ℝ) + 1) ^ alpha) < 1 := by
      rw [div_lt_one (by positivity)]
      nlinarith
    have hc : 1 < 1 / (1 - 1 / (2 * (C + 1) * ((K : ℝ) + 1) ^ alpha)) := by rw [lt_div_iff₀ (by linarith)]; linarith
    refine never hc _ fun M n => ?_
    refine rare (w1_sum (id := id) (C := C) (K := K) ha rfl rfl) (hv n) N M hc _ fun out hb hl => ?_
    refine le_trans (pow_le_pow_right₀ ?_ hb.2.2) (gain1 (first ev n) N [] _ _ out hl ?_ (by simpa using hb.2.1) (Nat.zero_le _) hb.1)
    · rw [ENNReal.one_le_ofReal]; exact hc.le
    · exact hstay _ N n fun m hm => ⟨⟨len, hs m (by omega)⟩, hC m⟩
  have h2 : ∀ᵐ x ∂generators, ∀ (id : Int) (len n0 : Nat), (∀ n, n0 ≤ n → (Spec.after (first ev n) []).get? id = some len) →
      ∀ (o N : Nat), o + tc ≤ len → n0 ≤ N → ¬ ∀ M, ∀ᶠ n in atTop, ∃ out, run alpha tc x.1 x.2 (first ev n) {} 0 = .ok out ∧
        ((∀ b ∈ out.drop N, ∀ p ∈ b, p ≠ (id, (o : Int), (o : Int) + tc)) ∧
          M ≤ total (fun b => (b.filter fun p => p.1 = id).length) (out.drop N)) := by
    rw [ae_all_iff]; intro id
    rw [ae_all_iff]; intro len
    rw [ae_all_iff]; intro n0
    rw [eventually_imp_distrib_left]; intro hs
    rw [ae_all_iff]; intro o
    rw [ae_all_iff]; intro N
    rw [eventually_imp_distrib_left]; intro ho
    rw [eventually_imp_distrib_left]; intro hN
    have hc : 1 < if len - tc = 0 then 2 else ((len - tc + 1 : ℕ) : ℝ) / ((len - tc : ℕ) : ℝ) := by
      split
      · norm_num
      · next hz =>
        have : (0 : ℝ) < ((len - tc : ℕ) : ℝ) := by exact_mod_cast Nat.pos_of_ne_zero hz
        rw [lt_div_iff₀ this]
        push_cast
        linarith
    refine never hc _ fun M n => ?_
    refine rare (w2_sum (id := id) (show o < len - tc + 1 by omega) rfl) (hv n) N M hc _ fun out hb hl => ?_
    refine le_trans (pow_le_pow_right₀ ?_ hb.2) (gain2 (first ev n) N [] _ _ out hl ?_ hb.1)
    · rw [ENNReal.one_le_ofReal]; exact hc.le
    · exact hstay _ N n fun m hm => hs m (by omega)
  filter_upwards [usual (alpha := alpha) hv, h1, h2] with x hx hx1 hx2
  have hrun := fun n => (hx n).1
  have hout := out_eq hrun
  have hsizes : ∀ n, (outOf ev alpha tc x n).map List.length = sizes (first ev n) := fun n => law_sizes _ _ _ _ _ (hx n).2
  have hlen : ∀ n, (outOf ev alpha tc x n).length = (sizes (first ev n)).length := fun n => by rw [← hsizes, List.length_map]
  refine ⟨batchesOf ev alpha tc x, fun n => ⟨(outOf ev alpha tc x n).length, by rw [← hout]; exact hrun n, by rw [← hout]; exact hsizes n⟩, ?_⟩
  have hgrow : ∀ m0, ∀ᶠ n in atTop, m0 ≤ (outOf ev alpha tc x n).length := by
    intro m0
    obtain ⟨n, -, hn, -⟩ := often hinf m0
    rw [eventually_atTop]
    refine ⟨n, fun n' hn' => ?_⟩
    obtain ⟨d, rfl⟩ := Nat.exists_eq_add_of_le hn'
    obtain ⟨es, hes⟩ := first_add ev n d
    rw [hlen, hes]
    simp only [sizes, List.filterMap_append, List.length_append] at hn ⊢
    omega
  have hfull : ∃ᶠ j in atTop, 0 < (batchesOf ev alpha tc x j).length := by
    rw [frequently_atTop]
    intro N
    obtain ⟨n, k, hn, hk, he⟩ := often hinf N
    refine ⟨(sizes (first ev n)).length, hn, ?_⟩
    have h3 := hsizes (n + 1)
    have h4 := hlen (n + 1)
    have h5 : sizes (first ev (n + 1)) = sizes (first ev n) ++ [k] := by
      rw [first_succ, he]; simp [sizes]
    rw [h5] at h3 h4
    rw [hout (n + 1), h4, List.length_append, List.length_singleton, List.range_succ, List.map_append, List.map_append] at h3
    have h6 := List.append_inj_right h3 (by simp)
    simp only [List.map_cons, List.map_nil, List.cons.injEq, and_true] at h6
    omega
  intro id len hid o ho
  obtain ⟨n0, hs⟩ := eventually_atTop.1 hid
  have hid1 : ∃ᶠ j in atTop, 0 < ((batchesOf ev alpha tc x j).filter fun p => p.1 = id).length := by
    by_contra hno
    rw [not_frequently, eventually_atTop] at hno
    obtain ⟨N', hno⟩ := hno
    refine hx1 id len n0 hs (max N' n0) (total List.length (((List.range (max N' n0)).map (batchesOf ev alpha tc x)))) (le_max_right _ _) fun M => ?_
    obtain ⟨m0, hm0⟩ := unbounded List.length (batchesOf ev alpha tc x) hfull (max N' n0) M
    filter_upwards [hgrow m0, hgrow (max N' n0)] with n hn hn2
    refine ⟨_, hrun n, ?_, ?_, ?_⟩
    · intro b hb p hp hpid
      rw [hout n] at hb
      obtain ⟨j, hj, rfl⟩ := mem_drop hb
      exact hno j (le_trans (le_max_left _ _) hj) (List.length_pos_iff.2 (List.ne_nil_of_mem (List.mem_filter.2 ⟨hp, by simpa using hpid⟩)))
    · rw [hout n, ← List.map_take, List.take_range, min_eq_left hn2]
    · rw [hout n]
      exact hm0 _ hn
  by_contra hno
  rw [not_frequently, eventually_atTop] at hno
  obtain ⟨N', hno⟩ := hno
  refine hx2 id len n0 hs o (max N' n0) ho (le_max_right _ _) fun M => ?_
  obtain ⟨m0, hm0⟩ := unbounded (fun b : List SamplePoint => (b.filter fun p => p.1 = id).length) (batchesOf ev alpha tc x) hid1 (max N' n0) M
  filter_upwards [hgrow m0] with n hn
  refine ⟨_, hrun n, ?_, ?_⟩
  · intro b hb p hp hpx
    rw [hout n] at hb
    obtain ⟨j, hj, rfl⟩ := mem_drop hb
    exact hno j (le_trans (le_max_left _ _) hj) (hpx ▸ hp)
  · rw [hout n]
    exact hm0 _ hn

end

/-! ## A concrete case -/

namespace Ex

/-- One sequence stays while another one comes and goes, with one draw each time. -/
def ev (n : Nat) : Event := if n = 0 then .track 7 5 else match n % 3 with | 0 => .forget 8 | 1 => .track 8 3 | _ => .batch 1

theorem after_append (es es' : List Event) : ∀ l, Spec.after (es ++ es') l = Spec.after es' (Spec.after es l) := by
  induction es with
  | nil => intro l; rfl
  | cons e es ih => intro l; cases e <;> simp only [List.cons_append, Spec.after] <;> exact ih _

theorem valid_append {tc : Nat} (es es' : List Event) : ∀ l, Valid tc (es ++ es') l ↔ Valid tc es l ∧ Valid tc es' (Spec.after es l) := by
  induction es with
  | nil => intro l; simp [Valid, Spec.after]
  | cons e es ih => intro l; cases e <;> simp only [List.cons_append, Spec.after, Valid, ih, and_assoc]

theorem invariant {tc : Nat} (htc : 0 < tc ∧ tc ≤ 3) (n : Nat) : Valid tc (first ev n) [] ∧
    Spec.after (first ev n) [] = if n = 0 then [] else if n % 3 = 1 then [(7, 5)] else [(7, 5), (8, 3)] := by
  induction n with
  | zero => exact ⟨trivial, rfl⟩
  | succ n ih =>
    rw [first_succ, valid_append, after_append, ih.2]
    refine ⟨⟨ih.1, ?_⟩, ?_⟩ <;> rcases Nat.eq_zero_or_pos n with rfl | hn
    · simp [ev, Valid]
      omega
    · have h3 : n % 3 = 0 ∨ n % 3 = 1 ∨ n % 3 = 2 := by omega
      rcases h3 with h | h | h <;> simp [ev, Valid, h, hn.ne', Dict.keys, htc.2]
    · simp [ev, Spec.after, Dict.set]
    · have h3 : n % 3 = 0 ∨ n % 3 = 1 ∨ n % 3 = 2 := by omega
      rcases h3 with h | h | h
      · rw [if_neg (by omega : ¬ n + 1 = 0), if_pos (by omega : (n + 1) % 3 = 1)]
        simp [ev, Spec.after, h, hn.ne', Dict.erase]
      · rw [if_neg (by omega : ¬ n + 1 = 0), if_neg (by omega : ¬ (n + 1) % 3 = 1)]
        simp [ev, Spec.after, h, hn.ne', Dict.set]
      · rw [if_neg (by omega : ¬ n + 1 = 0), if_neg (by omega : ¬ (n + 1) % 3 = 1)]
        simp [ev, Spec.after, h, hn.ne']

/-- The last window of the sequence that stays is drawn again and again. -/
example : ∀ᵐ x ∂generators, ∃ batches : Nat → List SamplePoint,
    (∀ n, ∃ m, run 2 2 x.1 x.2 ((List.range n).map ev) {} 0 = .ok ((List.range m).map batches)) ∧ ∃ᶠ j in atTop, (7, 3, 5) ∈ batches j := by
  have h := C167 (alpha := 2) (tc := 2) (by norm_num) (ev := ev) (fun n => (invariant (tc := 2) (by norm_num) n).1) (C := 8)
    (fun n => by
      have := (invariant (tc := 2) (by norm_num) n).2
      rw [first] at this
      rw [this]
      split
      · simp [Dict.values]
      · split <;> simp [Dict.values])
    (by
      rw [frequently_atTop]
      exact fun n => ⟨3 * n + 2, by omega, 1, one_pos, by
        rw [ev, if_neg (by omega), show (3 * n + 2) % 3 = 2 by omega]; rfl⟩)
  filter_upwards [h] with x ⟨b, h1, h2⟩
  refine ⟨b, fun n => (h1 n).imp fun _ h => h.1, h2 7 5 ?_ 3 (by norm_num)⟩
  filter_upwards [eventually_ge_atTop 1] with n hn
  have := (invariant (tc := 2) (by norm_num) n).2
  rw [first, if_neg (by omega)] at this
  rw [this]
  split <;> simp [Dict.get?]

end Ex

end Starve

end Verif.Props
