import Verif.Model.Curl
import Mathlib.Analysis.Complex.ExponentialBounds
import Mathlib.Algebra.Order.BigOperators.Group.Finset
import Mathlib.Algebra.BigOperators.Field
import Mathlib.Tactic.Linarith
import Mathlib.Tactic.FieldSimp
import Mathlib.Tactic.FinCases

/-!
# CURL (C100, C101, C109)
-/

namespace Verif

namespace Curl

open Real

/-! ## C109: the loss -/

section

variable {B Z : Type} [Fintype B] [Fintype Z] [DecidableEq B]

/-- The contrastive loss for similarities `s`: the mean over the images of minus the log of the share of its own
partner. -/
noncomputable def infoNCE (s : B → B → ℝ) : ℝ := (∑ i, -log (exp (s i i) / ∑ j, exp (s i j))) / Fintype.card B

/-- The bilinear similarity. -/
def similarity (za zpos : B → Z → ℝ) (W : Z → Z → ℝ) (i j : B) : ℝ := ∑ p : Z × Z, za i p.1 * W p.1 p.2 * zpos j p.2

omit [Fintype B] [DecidableEq B] in
theorem logits_eq (za zpos : B → Z → ℝ) (W : Z → Z → ℝ) : logits za zpos W = similarity za zpos W := by
  funext i j
  unfold logits similarity
  rw [Fintype.sum_prod_type]
  apply Finset.sum_congr rfl
  intro k _
  rw [Finset.mul_sum]
  apply Finset.sum_congr rfl
  intro l _
  ring

theorem crossEntropy_eq [Nonempty B] (x : B → B → ℝ) : crossEntropy x = infoNCE x := by
  unfold crossEntropy infoNCE
  congr 1
  apply Finset.sum_congr rfl
  intro i _
  have hpos : 0 < ∑ k, exp (x i k) := Finset.sum_pos (fun k _ => exp_pos _) Finset.univ_nonempty
  rw [Finset.sum_eq_single i, if_pos rfl, logSoftmax, log_div (exp_pos _).ne' hpos.ne', log_exp]
  · ring
  · intro j _ hj
    rw [if_neg (Ne.symm hj)]
    ring
  · intro h
    exact absurd (Finset.mem_univ i) h

/-- **C109, partial** With a temperature the loss is the contrastive loss of the scaled similarities. -/
theorem C109_partial [Nonempty B] (za zpos : B → Z → ℝ) (W : Z → Z → ℝ) (t : ℝ) :
    loss za zpos W (some t) = infoNCE fun i j => similarity za zpos W i j / t := by
  simp only [loss, logits_eq, crossEntropy_eq]

omit [DecidableEq B] in
theorem infoNCE_pos [Nontrivial B] (s : B → B → ℝ) : 0 < infoNCE s := by
  unfold infoNCE
  apply div_pos
  · apply Finset.sum_pos
    · intro i _
      obtain ⟨k, hk⟩ := exists_ne i
      have h1 : exp (s i i) < ∑ j, exp (s i j) := by
        exact Finset.single_lt_sum (f := fun j => exp (s i j)) hk (Finset.mem_univ i) (Finset.mem_univ k) (exp_pos _)
          fun j _ _ => (exp_pos _).le
      have h2 : exp (s i i) / ∑ j, exp (s i j) < 1 := (div_lt_one (lt_trans (exp_pos _) h1)).2 h1
      have := log_neg (div_pos (exp_pos _) (lt_trans (exp_pos _) h1)) h2
      linarith
    · exact Finset.univ_nonempty
  · exact_mod_cast Fintype.card_pos

omit [DecidableEq B] in
/-- The contrastive loss depends on the similarities of each row only up to a constant. -/
theorem infoNCE_shift [Nonempty B] (s : B → B → ℝ) (c : B → ℝ) : infoNCE (fun i j => s i j - c i) = infoNCE s := by
  unfold infoNCE
  congr 1
  apply Finset.sum_congr rfl
  intro i _
  have h : ∑ j, exp (s i j - c i) = (∑ j, exp (s i j)) / exp (c i) := by
    rw [Finset.sum_div]
    exact Finset.sum_congr rfl fun j _ => exp_sub _ _
  rw [h, exp_sub, div_div_div_cancel_right₀ (exp_pos _).ne']

/-- **C109** It is never zero or negative, in both variants: an image is never sure of its partner if there are others. -/
theorem C109_positive [Nontrivial B] (za zpos : B → Z → ℝ) (W : Z → Z → ℝ) (temperature : Option ℝ) :
    0 < loss za zpos W temperature := by
  cases temperature <;> simp only [loss, crossEntropy_eq] <;> exact infoNCE_pos _

/-- **C109, partial** Without a temperature it is the contrastive loss if all images have the same largest similarity: what is
subtracted is then the same for a whole row. -/
theorem C109_equal_maxima_partial [Nonempty B] (za zpos : B → Z → ℝ) (W : Z → Z → ℝ) (m : ℝ)
    (h : ∀ i, (∀ j, similarity za zpos W i j ≤ m) ∧ ∃ j, similarity za zpos W i j = m) :
    loss za zpos W none = infoNCE (similarity za zpos W) := by
  have hm : ∀ i, amax (similarity za zpos W) i = m := by
    intro i
    obtain ⟨h1, j, h2⟩ := h i
    refine le_antisymm (Finset.sup'_le _ _ fun j _ => h1 j) ?_
    rw [← h2]
    exact Finset.le_sup' (similarity za zpos W i) (Finset.mem_univ j)
  simp only [loss, logits_eq, crossEntropy_eq, hm]
  exact infoNCE_shift _ fun _ => m

end

/-- **C109** Without a temperature the loss is the contrastive loss too: removing the maximum does not change it. -/
def C109_claim : Prop :=
  ∀ (n m : Nat) (za zpos : Fin (n + 1) → Fin m → ℝ) (W : Fin m → Fin m → ℝ),
    loss za zpos W none = infoNCE (similarity za zpos W)

namespace Ex

/-- Two images; the similarities are `0 1 / 0 0`. -/
def za : Fin 2 → Fin 1 → ℝ := fun i _ => if i = 0 then 1 else 0
def zpos : Fin 2 → Fin 1 → ℝ := fun j _ => if j = 1 then 1 else 0
def W : Fin 1 → Fin 1 → ℝ := fun _ _ => 1

theorem sim (i j : Fin 2) : similarity za zpos W i j = if i = 0 ∧ j = 1 then 1 else 0 := by
  unfold similarity za zpos W
  fin_cases i <;> fin_cases j <;> simp

theorem amax_eq (i : Fin 2) : amax (similarity za zpos W) i = if i = 0 then 1 else 0 := by
  unfold amax
  apply le_antisymm
  · apply Finset.sup'_le
    intro j _
    rw [sim]
    fin_cases i <;> fin_cases j <;> simp
  · fin_cases i
    · refine le_trans ?_ (Finset.le_sup' _ (Finset.mem_univ (1 : Fin 2)))
      rw [sim]; simp
    · refine le_trans ?_ (Finset.le_sup' _ (Finset.mem_univ (1 : Fin 2)))
      rw [sim]; simp

end Ex

theorem C109_false : ¬ C109_claim := fun h => by
  have h1 : loss (B := Fin 2) Ex.za Ex.zpos Ex.W none = infoNCE (similarity Ex.za Ex.zpos Ex.W) := h 1 1 Ex.za Ex.zpos Ex.W
  simp only [loss, logits_eq, crossEntropy_eq] at h1
  have h2 : ∀ s : Fin 2 → Fin 2 → ℝ, infoNCE s =
      (log (exp (s 0 0) + exp (s 0 1)) - s 0 0 + (log (exp (s 1 0) + exp (s 1 1)) - s 1 1)) / 2 := by
    intro s
    have hp : ∀ x y : ℝ, exp x + exp y ≠ 0 := fun x y => (add_pos (exp_pos _) (exp_pos _)).ne'
    unfold infoNCE
    simp only [Fin.sum_univ_two, log_div (exp_pos _).ne' (hp _ _), log_exp, Fintype.card_fin]
    push_cast
    ring
  rw [h2, h2] at h1
  simp only [Ex.sim, Ex.amax_eq] at h1
  norm_num at h1
  have he : 1 < exp 1 := by
    have := add_one_lt_exp (one_ne_zero : (1 : ℝ) ≠ 0)
    linarith
  have hp := exp_pos (1 : ℝ)
  have hinv : exp (-1) = (exp 1)⁻¹ := exp_neg 1
  rw [hinv] at h1
  generalize hE : exp 1 = e at h1 he hp
  have h3 : (1 : ℝ) = log e := by rw [← hE, log_exp]
  rw [show log (e⁻¹ + e) + 1 + log (e⁻¹ + 1) = log (e⁻¹ + e) + log e + log (e⁻¹ + 1) by rw [← h3]] at h1
  have hi : 0 < e⁻¹ := inv_pos.2 hp
  rw [← log_mul (by positivity) (by positivity), ← log_mul (by positivity) (by positivity),
    ← log_mul (by positivity) (by positivity)] at h1
  have h4 := log_injOn_pos (Set.mem_Ioi.2 (by positivity)) (Set.mem_Ioi.2 (by positivity)) h1
  field_simp at h4
  nlinarith [sq_nonneg (e - 1)]

example := C109_partial Ex.za Ex.zpos Ex.W (1 / 10)
example := C109_positive Ex.za Ex.zpos Ex.W none

/-- Two images, each like its own partner -/
example : loss (fun i j : Fin 2 => if i = j then (1 : ℝ) else 0) (fun i j => if i = j then 1 else 0) (fun i j => if i = j then 2 else 0)
    none = infoNCE (similarity (fun i j : Fin 2 => if i = j then (1 : ℝ) else 0) (fun i j => if i = j then 1 else 0)
      fun i j => if i = j then 2 else 0) :=
  C109_equal_maxima_partial _ _ _ 2 fun i => ⟨fun j => by
    fin_cases i <;> fin_cases j <;> simp [similarity, Fintype.sum_prod_type], i, by fin_cases i <;> simp [similarity, Fintype.sum_prod_type]⟩

/-! ## C100: the target -/

theorem softUpdate_other (tau : ℝ) (source target : List Nat) (w : Nat → ℝ) (p : Nat) (h : p ∉ target) :
    (softUpdate tau source target w).2 p = w p := by
  induction target generalizing source w with
  | nil => cases source <;> rfl
  | cons t target ih =>
    cases source with
    | nil => rfl
    | cons s source =>
      rw [softUpdate, ih _ _ fun hc => h (by simp [hc]), Function.update_of_ne (by rintro rfl; simp at h)]

/-- **C100** The update itself moves each weight of the target towards its source, and no other. -/
theorem C100_update (tau : ℝ) (source target : List Nat) (w : Nat → ℝ) (hlen : source.length = target.length)
    (hn : target.Nodup) (hd : ∀ p ∈ source, p ∉ target) :
    (∀ (i : Nat) s t, source[i]? = some s → target[i]? = some t →
      (softUpdate tau source target w).2 t = w t * (1 - tau) + w s * tau) ∧
    (∀ p, p ∉ target → (softUpdate tau source target w).2 p = w p) ∧ (softUpdate tau source target w).1 = ([], []) := by
  refine ⟨?_, fun p => softUpdate_other tau source target w p, ?_⟩
  · induction target generalizing source w with
    | nil => intro i s t _ h; simp at h
    | cons t target ih =>
      cases source with
      | nil => simp at hlen
      | cons s source =>
        intro i s' t' h1 h2
        rw [List.nodup_cons] at hn
        rw [softUpdate]
        cases i with
        | zero =>
          simp only [List.getElem?_cons_zero, Option.some.injEq] at h1 h2
          subst h1 h2
          rw [softUpdate_other _ _ _ _ _ hn.1, Function.update_self]
        | succ i =>
          simp only [List.getElem?_cons_succ] at h1 h2
          have hs' := List.mem_of_getElem? h1
          have ht' := List.mem_of_getElem? h2
          rw [ih source _ (by simpa using hlen) hn.2 (fun p hp hc => hd p (by simp [hp]) (by simp [hc])) i s' t' h1 h2,
            Function.update_of_ne (by rintro rfl; exact hn.1 ht'),
            Function.update_of_ne (by rintro rfl; exact hd s' (by simp [hs']) (by simp))]
  · clear hn hd
    induction target generalizing source w with
    | nil => cases source with
      | nil => rfl
      | cons s source => simp at hlen
    | cons t target ih =>
      cases source with
      | nil => simp at hlen
      | cons s source => exact ih _ _ (by simpa using hlen)

/-- The weights after some batches; in each the optimiser changes weights. -/
def trained (useProjection : Bool) (tau : ℝ) (steps : List ((Nat → ℝ) → (Nat → ℝ))) (l : Loss) : Loss :=
  steps.foldl (fun l f => Loss.endBatch useProjection tau { l with weights := f l.weights }) l

/-- **C100** After a batch the target has moved towards the encoder. -/
def C100_claim : Prop :=
  ∀ (tau : ℝ) (source target : List Nat) (w : Nat → ℝ) (steps : List ((Nat → ℝ) → (Nat → ℝ))) (f : (Nat → ℝ) → (Nat → ℝ)),
    source.length = target.length → target.Nodup → (∀ p ∈ source, p ∉ target) →
    ∀ (i : Nat) s t, source[i]? = some s → target[i]? = some t →
      let before := f (trained true tau steps (Loss.new true source target w)).weights
      (trained true tau (steps ++ [f]) (Loss.new true source target w)).weights t = before t * (1 - tau) + before s * tau

/-- **C100 is false in every case** After construction `end_batch` never changes anything: the generators were used up there.
A weight of the target that the optimiser leaves alone keeps for ever what it had after construction. -/
theorem C100_frozen (useProjection : Bool) (tau : ℝ) (source target : List Nat) (w : Nat → ℝ)
    (hlen : source.length = target.length) (hn : target.Nodup) (hd : ∀ p ∈ source, p ∉ target)
    (steps : List ((Nat → ℝ) → (Nat → ℝ))) (t : Nat) (hopt : ∀ f ∈ steps, ∀ v, f v t = v t) :
    (trained useProjection tau steps (Loss.new useProjection source target w)).weights t =
      (Loss.new useProjection source target w).weights t := by
  have hused : (Loss.new useProjection source target w).source = [] ∧ (Loss.new useProjection source target w).target = [] := by
    unfold Loss.new
    split
    · have := (C100_update 1 source target w hlen hn hd).2.2
      simp only [this, and_self]
    · exact ⟨rfl, rfl⟩
  generalize Loss.new useProjection source target w = l at *
  unfold trained
  induction steps generalizing l with
  | nil => rfl
  | cons f steps ih =>
    have hb : Loss.endBatch useProjection tau { l with weights := f l.weights } = { l with weights := f l.weights } := by
      unfold Loss.endBatch
      split
      · simp only [hused.1, hused.2, softUpdate]
      · rfl
    rw [List.foldl_cons, hb, ih (fun g hg => hopt g (by simp [hg])) { l with weights := f l.weights } hused]
    exact hopt f (by simp) _

theorem C100_false : ¬ C100_claim := fun h => by
  have h1 := h (1 / 2) [0] [1] (fun p => if p = 0 then 1 else 0) [] (fun w => Function.update w 0 3) rfl (by simp) (by simp)
    0 0 1 rfl rfl
  simp only [List.nil_append] at h1
  rw [C100_frozen true (1 / 2) [0] [1] _ rfl (by simp) (by simp) [fun w => Function.update w 0 3] 1 (by simp)] at h1
  simp [trained, Loss.new, softUpdate] at h1
  norm_num at h1

/-! ## C101: cutting out -/

theorem maskSize_lt {im : Nat} {size : ℝ} (him : 1 ≤ im) (h0 : 0 ≤ size) (h1 : size < 1) : maskSize im size < im := by
  unfold maskSize
  have hp : (0 : ℝ) < im := by exact_mod_cast him
  rw [Nat.floor_lt (by positivity)]
  nlinarith

theorem relativeSize_mem {min max rnd : ℝ} (h : min ≤ max) (h0 : 0 ≤ rnd) (h1 : rnd < 1) :
    min ≤ relativeSize min max rnd ∧ relativeSize min max rnd ≤ max := by
  unfold relativeSize
  constructor <;> nlinarith

/-- The part that is cut out: a rectangle inside the image, whose sides have (up to rounding down) a common fraction of the
sides of the image, between the minimum and the maximum. -/
structure Inside (min max : ℝ) (imX imY : Nat) (r : (Nat × Nat) × (Nat × Nat)) : Prop where
  x : r.1.1 ≤ r.1.2 ∧ r.1.2 ≤ imX
  y : r.2.1 ≤ r.2.2 ∧ r.2.2 ≤ imY
  size : ∃ f : ℝ, min ≤ f ∧ f ≤ max ∧ r.1.2 - r.1.1 = ⌊imX * f⌋₊ ∧ r.2.2 - r.2.1 = ⌊imY * f⌋₊

theorem maskIndices_ok {min max : ℝ} {imX imY : Nat} {rnd : ℝ} (a b : Nat) (h : min ≤ max) (h0 : 0 ≤ min) (h1 : max < 1)
    (hx : 1 ≤ imX) (hy : 1 ≤ imY) (hr0 : 0 ≤ rnd) (hr1 : rnd < 1) :
    ∃ r, maskIndices min max imX imY rnd a b = .ok r ∧ Inside min max imX imY r ∧ r.1.2 < imX ∧ r.2.2 < imY := by
  obtain ⟨hs1, hs2⟩ := relativeSize_mem h hr0 hr1
  have hmx := maskSize_lt hx (le_trans h0 hs1) (lt_of_le_of_lt hs2 h1)
  have hmy := maskSize_lt hy (le_trans h0 hs1) (lt_of_le_of_lt hs2 h1)
  have e1 : ∀ d, randint ((imX : Int) - maskSize imX (relativeSize min max rnd)) d =
      .ok (d % (imX - maskSize imX (relativeSize min max rnd))) := by
    intro d
    rw [randint, if_neg (by omega)]
    congr 2
    omega
  have e2 : ∀ d, randint ((imY : Int) - maskSize imY (relativeSize min max rnd)) d =
      .ok (d % (imY - maskSize imY (relativeSize min max rnd))) := by
    intro d
    rw [randint, if_neg (by omega)]
    congr 2
    omega
  refine ⟨((a % (imX - maskSize imX (relativeSize min max rnd)),
      a % (imX - maskSize imX (relativeSize min max rnd)) + maskSize imX (relativeSize min max rnd)),
      b % (imY - maskSize imY (relativeSize min max rnd)),
      b % (imY - maskSize imY (relativeSize min max rnd)) + maskSize imY (relativeSize min max rnd)),
    by simp only [maskIndices, e1, e2], ?_, ?_, ?_⟩
  · have ha := Nat.mod_lt a (show imX - maskSize imX (relativeSize min max rnd) > 0 by omega)
    have hb := Nat.mod_lt b (show imY - maskSize imY (relativeSize min max rnd) > 0 by omega)
    refine ⟨by constructor <;> dsimp only <;> omega, by constructor <;> dsimp only <;> omega,
      relativeSize min max rnd, hs1, hs2, ?_, ?_⟩
    · simp only [Nat.add_sub_cancel_left]; rfl
    · simp only [Nat.add_sub_cancel_left]; rfl
  · have ha := Nat.mod_lt a (show imX - maskSize imX (relativeSize min max rnd) > 0 by omega)
    dsimp only
    omega
  · have hb := Nat.mod_lt b (show imY - maskSize imY (relativeSize min max rnd) > 0 by omega)
    dsimp only
    omega

/-- What cutting out makes of an image: in a rectangle it is zero, elsewhere it is what it was. -/
def CutOut {γ : Type} (min max : ℝ) (imX imY : Nat) (before after : Nat → Nat → γ → ℝ) : Prop :=
  ∃ r, Inside min max imX imY r ∧
    (∀ x y c, r.1.1 ≤ x → x < r.1.2 → r.2.1 ≤ y → y < r.2.2 → after x y c = 0) ∧
    (∀ x y c, ¬ (r.1.1 ≤ x ∧ x < r.1.2 ∧ r.2.1 ≤ y ∧ y < r.2.2) → after x y c = before x y c)

/-- **C101** Cutting out never fails, keeps the number and order of the images, and cuts a rectangle of the right size out of
each, in every mode. -/
theorem C101_cutout {γ : Type} (mode : Mode) {min max : ℝ} {imX imY : Nat} (h : min ≤ max) (h0 : 0 ≤ min) (h1 : max < 1)
    (hx : 1 ≤ imX) (hy : 1 ≤ imY) (rnd : Nat → ℝ) (hr : ∀ i, 0 ≤ rnd i ∧ rnd i < 1) (a b : Nat → Nat)
    (ims : List (Nat → Nat → γ → ℝ)) :
    ∃ out, cutout min max imX imY (drawsFor mode rnd a b) 0 ims = .ok out ∧ out.length = ims.length ∧
      ∀ (i : Nat) im im', ims[i]? = some im → out[i]? = some im' → CutOut min max imX imY im im' := by
  have hd : ∀ i, 0 ≤ (drawsFor mode rnd a b i).1 ∧ (drawsFor mode rnd a b i).1 < 1 := by
    intro i
    cases mode <;> exact hr _
  generalize drawsFor mode rnd a b = draws at hd
  generalize 0 = n
  induction ims generalizing n with
  | nil => exact ⟨[], rfl, rfl, by simp⟩
  | cons im ims ih =>
    obtain ⟨out, e1, e2, e3⟩ := ih (n + 1)
    obtain ⟨r, f1, f2, _, _⟩ := maskIndices_ok (draws n).2.1 (draws n).2.2 h h0 h1 hx hy (hd n).1 (hd n).2
    refine ⟨cut r im :: out, by simp only [cutout, f1, e1], by simp [e2], ?_⟩
    intro i x x' g1 g2
    cases i with
    | zero =>
      simp only [List.getElem?_cons_zero, Option.some.injEq] at g1 g2
      subst g1 g2
      refine ⟨r, f2, ?_, ?_⟩
      · intro x y c k1 k2 k3 k4
        simp only [cut, k1, k2, k3, k4, and_self, if_true]
      · intro x y c k
        simp only [cut, k, if_false]
    | succ i => exact e3 i x x' g1 g2

/-- **C101** In the fast mode the same rectangle is cut out of all images; with one mask size per batch the rectangles have the
same size; otherwise each image has its own draws. -/
theorem C101_modes {γ : Type} (mode : Mode) {min max : ℝ} {imX imY : Nat} (rnd : Nat → ℝ) (a b : Nat → Nat)
    (ims out : List (Nat → Nat → γ → ℝ)) (h : cutout min max imX imY (drawsFor mode rnd a b) 0 ims = .ok out) :
    ∃ rs : List ((Nat × Nat) × (Nat × Nat)), out = List.zipWith cut rs ims ∧ rs.length = ims.length ∧
      (∀ (i : Nat) r, rs[i]? = some r → mode = .perImage → maskIndices min max imX imY (rnd i) (a i) (b i) = .ok r) ∧
      (mode = .fast → ∀ r ∈ rs, ∀ r' ∈ rs, r = r') ∧
      (mode ≠ .perImage → ∀ r ∈ rs, ∀ r' ∈ rs, r.1.2 - r.1.1 = r'.1.2 - r'.1.1 ∧ r.2.2 - r.2.1 = r'.2.2 - r'.2.1) := by
  have key : ∀ (draws : Nat → ℝ × Nat × Nat) (n : Nat) (ims out : List (Nat → Nat → γ → ℝ)),
      cutout min max imX imY draws n ims = .ok out → ∃ rs : List ((Nat × Nat) × (Nat × Nat)), out = List.zipWith cut rs ims ∧
        rs.length = ims.length ∧ ∀ (i : Nat) r, rs[i]? = some r →
          maskIndices min max imX imY (draws (n + i)).1 (draws (n + i)).2.1 (draws (n + i)).2.2 = .ok r := by
    intro draws n ims
    induction ims generalizing n with
    | nil =>
      intro out h
      cases h
      exact ⟨[], rfl, rfl, by simp⟩
    | cons im ims ih =>
      intro out h
      rw [cutout] at h
      cases hm : maskIndices min max imX imY (draws n).1 (draws n).2.1 (draws n).2.2 with
      | error e => rw [hm] at h; cases h
      | ok r =>
        rw [hm] at h
        cases hc : cutout min max imX imY draws (n + 1) ims with
        | error e => simp only [hc] at h; cases h
        | ok rest =>
          simp only [hc] at h
          cases h
          obtain ⟨rs, h1, h2, h3⟩ := ih (n + 1) rest hc
          refine ⟨r :: rs, by rw [h1]; rfl, by simp [h2], fun i r' hi => ?_⟩
          cases i with
          | zero =>
            simp only [List.getElem?_cons_zero, Option.some.injEq] at hi
            rw [← hi]; exact hm
          | succ i =>
            have := h3 i r' (by simpa using hi)
            rwa [show n + (i + 1) = n + 1 + i by omega]
  obtain ⟨rs, h1, h2, h3⟩ := key _ 0 ims out h
  simp only [Nat.zero_add] at h3
  have size : ∀ (rnd : ℝ) a b r, maskIndices min max imX imY rnd a b = .ok r →
      r.1.2 - r.1.1 = maskSize imX (relativeSize min max rnd) ∧ r.2.2 - r.2.1 = maskSize imY (relativeSize min max rnd) := by
    intro rnd a b r hr
    simp only [maskIndices] at hr
    split at hr
    · cases hr
    · split at hr
      · cases hr
      · cases hr
        simp
  refine ⟨rs, h1, h2, fun i r hi hm => ?_, fun hm r hr r' hr' => ?_, fun hm r hr r' hr' => ?_⟩
  · have := h3 i r hi
    rw [hm] at this
    exact this
  · obtain ⟨i, hi⟩ := List.mem_iff_getElem?.1 hr
    obtain ⟨i', hi'⟩ := List.mem_iff_getElem?.1 hr'
    have e := h3 i r hi
    have e' := h3 i' r' hi'
    rw [hm] at e e'
    exact Except.ok.inj (e.symm.trans e')
  · obtain ⟨i, hi⟩ := List.mem_iff_getElem?.1 hr
    obtain ⟨i', hi'⟩ := List.mem_iff_getElem?.1 hr'
    have e := size _ _ _ _ (h3 i r hi)
    have e' := size _ _ _ _ (h3 i' r' hi')
    cases mode with
    | fast => exact ⟨e.1.trans e'.1.symm, e.2.trans e'.2.symm⟩
    | perBatch => exact ⟨e.1.trans e'.1.symm, e.2.trans e'.2.symm⟩
    | perImage => exact absurd rfl hm

/-- **C101** Every place can be cut out. -/
def C101_claim : Prop :=
  ∀ (min max : ℝ) (im : Nat), min ≤ max → 0 ≤ min → max < 1 → 1 ≤ im → (1 : ℝ) ≤ im * min → ∀ x y, x < im → y < im →
    ∃ rnd a b r, 0 ≤ rnd ∧ rnd < 1 ∧ maskIndices min max im im rnd a b = .ok r ∧ r.1.1 ≤ x ∧ x < r.1.2 ∧ r.2.1 ≤ y ∧ y < r.2.2

/-- **C101 is false** The last row and the last column are never cut out: the upper end of `randint` is exclusive. -/
theorem C101_last {min max : ℝ} {imX imY : Nat} {rnd : ℝ} (a b : Nat) (h : min ≤ max) (h0 : 0 ≤ min) (h1 : max < 1)
    (hx : 1 ≤ imX) (hy : 1 ≤ imY) (hr0 : 0 ≤ rnd) (hr1 : rnd < 1) {r : (Nat × Nat) × (Nat × Nat)}
    (hr : maskIndices min max imX imY rnd a b = .ok r) : r.1.2 < imX ∧ r.2.2 < imY := by
  obtain ⟨r', h2, _, h3, h4⟩ := maskIndices_ok a b h h0 h1 hx hy hr0 hr1
  rw [hr] at h2
  cases h2
  exact ⟨h3, h4⟩

theorem C101_false : ¬ C101_claim := fun h => by
  obtain ⟨rnd, a, b, r, h1, h2, h3, _, h5, _, _⟩ := h (1/5) (2/5) 10 (by norm_num) (by norm_num) (by norm_num) (by norm_num)
    (by norm_num) 9 0 (by norm_num) (by norm_num)
  have := C101_last a b (by norm_num) (by norm_num) (by norm_num) (by norm_num) (by norm_num) h1 h2 h3
  omega

example : maskIndices (1/5) (2/5) 10 20 (1/2) 3 17 = .ok ((3, 6), (3, 9)) := by
  have h1 : maskSize 10 (relativeSize (1/5) (2/5) (1/2)) = 3 := by
    unfold maskSize relativeSize
    rw [Nat.floor_eq_iff (by norm_num)]
    norm_num
  have h2 : maskSize 20 (relativeSize (1/5) (2/5) (1/2)) = 6 := by
    unfold maskSize relativeSize
    rw [Nat.floor_eq_iff (by norm_num)]
    norm_num
  simp only [maskIndices, h1, h2]
  decide
example := C101_cutout (γ := Unit) .perBatch (min := 1/5) (max := 2/5) (imX := 10) (imY := 20) (by norm_num) (by norm_num)
  (by norm_num) (by norm_num) (by norm_num) (fun _ => 1/2) (fun _ => by norm_num) (fun i => i) (fun i => i + 1)
  [fun _ _ _ => 1, fun x _ _ => x]

end Curl

end Verif
