import Verif.Model.TreeDraws
import Verif.Props.SegmentTree
import Verif.Props.UniformRun
import Mathlib.Probability.Independence.InfinitePi

/-!
# C156: drawing with a segment tree
-/

namespace Verif.Props

namespace TreeDraws

open Verif MeasureTheory
open Verif.TreeDraws (create total assign draw draws)
open Verif.Props.RealDraws (unit)
open Verif.Props.UniformRun (preserves_first)
open Verif.UniformRun (rest)
open Verif.Props.Seg (writeAll arrayAfter)
open scoped ENNReal

/-! ## Specification -/

/-- The weights after some of them were assigned, one after the other -/
def changed (writes : List (Nat × ℝ)) (a : Nat → ℝ) : Nat → ℝ :=
  fun i => writes.foldl (fun v w => if w.1 = i then w.2 else v) (a i)

/-- The probability of the draws `out` from `size` indices with the weights `a`, after `drawn` was drawn: each index is drawn with a
probability proportional to the weight it has at that time. -/
noncomputable def law (size : Nat) (writes : List Nat → List (Nat × ℝ)) : List Nat → (Nat → ℝ) → List Nat → ℝ≥0∞
  | _, _, [] => 1
  | drawn, a, i :: out =>
    ENNReal.ofReal (changed (writes drawn) a i / ∑ j ∈ Finset.range size, changed (writes drawn) a j) *
      law size writes (drawn ++ [i]) (changed (writes drawn) a) out

/-- What is asked of the weights for `n` draws: indices are in range, weights are not negative, and not all of them are zero when an
index is drawn. Only what can be drawn matters. -/
def Proper (size : Nat) (writes : List Nat → List (Nat × ℝ)) : Nat → List Nat → (Nat → ℝ) → Prop
  | 0, _, _ => True
  | n + 1, drawn, a =>
    (∀ w ∈ writes drawn, w.1 < size ∧ 0 ≤ w.2) ∧ 0 < ∑ j ∈ Finset.range size, changed (writes drawn) a j ∧
      ∀ i < size, 0 < changed (writes drawn) a i → Proper size writes n (drawn ++ [i]) (changed (writes drawn) a)

/-- Each of the draws had a positive weight when it was drawn. -/
def Positive (size : Nat) (writes : List Nat → List (Nat × ℝ)) : List Nat → (Nat → ℝ) → List Nat → Prop
  | _, _, [] => True
  | drawn, a, i :: out => i < size ∧ 0 < changed (writes drawn) a i ∧
      Positive size writes (drawn ++ [i]) (changed (writes drawn) a) out

/-! ## Proofs -/

theorem changed_after (ws vs : List (Nat × ℝ)) : changed vs (arrayAfter 0 ws) = arrayAfter 0 (ws ++ vs) := by
  funext i; simp only [changed, arrayAfter, List.foldl_append]

theorem after_nonneg {ws : List (Nat × ℝ)} (h : ∀ w ∈ ws, 0 ≤ w.2) (i : Nat) : 0 ≤ arrayAfter (0 : ℝ) ws i := by
  unfold arrayAfter
  have : ∀ (ws : List (Nat × ℝ)) (a : ℝ), (∀ w ∈ ws, 0 ≤ w.2) → 0 ≤ a →
      0 ≤ ws.foldl (fun a w => if w.1 = i then w.2 else a) a := by
    intro ws
    induction ws with
    | nil => intro a _ ha; exact ha
    | cons w ws ih =>
      intro a hws ha
      apply ih _ (fun w h => hws w (by simp [h]))
      show 0 ≤ if w.1 = i then w.2 else a
      split
      · exact hws w (by simp)
      · exact ha
  exact this ws 0 h (le_refl 0)

theorem after_outside {size : Nat} {ws : List (Nat × ℝ)} (h : ∀ w ∈ ws, w.1 < size) {i : Nat} (hi : size ≤ i) :
    arrayAfter (0 : ℝ) ws i = 0 := by
  unfold arrayAfter
  induction ws with
  | nil => rfl
  | cons w ws ih =>
    simp only [List.foldl_cons]
    rw [if_neg (by have := h w (by simp); omega)]
    exact ih fun w h' => h w (by simp [h'])

theorem prefixSum_sum (a : Nat → ℝ) (n : Nat) : prefixSum a n = ∑ j ∈ Finset.range n, a j := by
  induction n with
  | zero => rfl
  | succ n ih => rw [Finset.sum_range_succ, ← ih]; rfl

theorem writeAll_append {op : ℝ → ℝ → ℝ} {t0 t1 t2 : SegTree ℝ} {ws vs : List (Nat × ℝ)} (h1 : writeAll op ws t0 = (t1, .ok ()))
    (h2 : writeAll op vs t1 = (t2, .ok ())) : writeAll op (ws ++ vs) t0 = (t2, .ok ()) := by
  induction ws generalizing t0 with
  | nil => injection h1 with h1 _; subst h1; exact h2
  | cons w ws ih =>
    unfold writeAll at h1 ih ⊢
    simp only [List.cons_append, Res.forEach] at h1 ⊢
    rcases hs : SegTree.setItem op w.1 w.2 t0 with ⟨t, r⟩
    rw [hs] at h1
    cases r with
    | error e => injection h1 with _ h; cases h
    | ok _ => exact ih h1

/-- A tree that was made and then assigned to -/
structure Tree (h : Nat) (ws : List (Nat × ℝ)) (t : SegTree ℝ) : Prop where
  ok : ∀ w ∈ ws, w.1 < 2 ^ h ∧ 0 ≤ w.2
  made : ∃ t0, SegTree.new ((2 ^ h : Nat) : Int) 0 = .ok t0 ∧ writeAll (· + ·) ws t0 = (t, .ok ())

theorem Tree.assign {h : Nat} {ws : List (Nat × ℝ)} {t : SegTree ℝ} (ht : Tree h ws t) {vs : List (Nat × ℝ)}
    (hv : ∀ w ∈ vs, w.1 < 2 ^ h ∧ 0 ≤ w.2) : ∃ t', assign vs t = (t', .ok ()) ∧ Tree h (ws ++ vs) t' := by
  obtain ⟨t0, h1, h2⟩ := ht.made
  obtain ⟨t0', f0, g1, g2⟩ := Seg.new_ok (op := (· + ·)) (neutral := (0 : ℝ)) (by simp) h
  rw [h1] at g1; injection g1 with g1; subst g1
  obtain ⟨t', f, g3, g4⟩ := Seg.writeAll_ok ws (fun w h => (ht.ok w h).1) g2
  rw [h2] at g3; injection g3 with g3 _; subst g3
  obtain ⟨t', f', g5, -⟩ := Seg.writeAll_ok vs (fun w h => (hv w h).1) g4
  refine ⟨t', g5, ⟨fun w hw => ?_, t0, h1, writeAll_append h2 g5⟩⟩
  rcases List.mem_append.1 hw with hw | hw
  · exact ht.ok w hw
  · exact hv w hw

section
variable {h : Nat} {ws : List (Nat × ℝ)} {t : SegTree ℝ} (ht : Tree h ws t)
  (hpos : 0 < ∑ j ∈ Finset.range (2 ^ h), arrayAfter 0 ws j) {eps : ℝ} (heps : 0 ≤ eps) {fuel : Nat} (hf : h < fuel)
include ht

theorem Tree.total (hf : h < fuel) : total fuel 0 none t = .ok (∑ j ∈ Finset.range (2 ^ h), arrayAfter 0 ws j) := by
  obtain ⟨t0, h1, h2⟩ := ht.made
  obtain ⟨t0', t', g1, g2, _, _, g3, _⟩ := C25_reduce (op := (· + ·)) (fun a b c => add_assoc a b c)
    (neutral := (0 : ℝ)) (by simp) h ws (fun w h => (ht.ok w h).1)
  rw [h1] at g1; injection g1 with g1; subst g1
  rw [h2] at g2; injection g2 with g2 _; subst g2
  have hp : 0 < 2 ^ h := Nat.two_pow_pos h
  have := g3 fuel hf 0 hp
  rw [Verif.TreeDraws.total]
  refine this.trans ?_
  have hsum := prefixSum_fold (arrayAfter (0 : ℝ) ws) 0 (2 ^ h - 1)
  rw [show 0 + (2 ^ h - 1) + 1 = 2 ^ h by omega] at hsum
  simp only [prefixSum, zero_add] at hsum
  rw [Nat.sub_zero, ← hsum, prefixSum_sum]

include hpos heps hf

theorem Tree.draw {x : ℝ} (hx : x ∈ Set.Ico (0 : ℝ) 1) :
    ∃ i, draw eps fuel x t = .ok i ∧ i < 2 ^ h ∧ 0 < arrayAfter 0 ws i ∧
      ∀ i', i' < 2 ^ h → (x ∈ Set.Ico ((∑ j ∈ Finset.range i', arrayAfter 0 ws j) / ∑ j ∈ Finset.range (2 ^ h), arrayAfter 0 ws j)
        ((∑ j ∈ Finset.range (i' + 1), arrayAfter 0 ws j) / ∑ j ∈ Finset.range (2 ^ h), arrayAfter 0 ws j) ↔ i = i') := by
  obtain ⟨t0, h1, h2⟩ := ht.made
  have hp : x * (∑ j ∈ Finset.range (2 ^ h), arrayAfter 0 ws j) < prefixSum (arrayAfter 0 ws) (2 ^ h) := by
    rw [prefixSum_sum]; nlinarith [hx.2]
  obtain ⟨i, g1, g2, g3, g4, g5⟩ := C26_prefix_sum h ws ht.ok h1 h2 heps hf (mul_nonneg hx.1 hpos.le) hp
  refine ⟨i, ?_, g2, g3, fun i' hi' => ?_⟩
  · unfold Verif.TreeDraws.draw
    rw [ht.total hf]
    exact g1
  · rw [Set.mem_Ico, div_le_iff₀ hpos, lt_div_iff₀ hpos, ← prefixSum_sum, ← prefixSum_sum _ (i' + 1)]
    constructor
    · rintro ⟨a, b⟩; exact (g5 i' hi' a b).symm
    · rintro rfl; exact g4

omit heps hf in
/-- How probable the numbers are that lead to an index -/
theorem Tree.share {i : Nat} (hi : i < 2 ^ h) :
    unit (Set.Ico ((∑ j ∈ Finset.range i, arrayAfter 0 ws j) / ∑ j ∈ Finset.range (2 ^ h), arrayAfter 0 ws j)
        ((∑ j ∈ Finset.range (i + 1), arrayAfter 0 ws j) / ∑ j ∈ Finset.range (2 ^ h), arrayAfter 0 ws j))
      = ENNReal.ofReal (arrayAfter 0 ws i / ∑ j ∈ Finset.range (2 ^ h), arrayAfter 0 ws j) := by
  have hn : ∀ j, 0 ≤ arrayAfter (0 : ℝ) ws j := after_nonneg fun w hw => (ht.ok w hw).2
  have hle : ∑ j ∈ Finset.range (i + 1), arrayAfter 0 ws j ≤ ∑ j ∈ Finset.range (2 ^ h), arrayAfter 0 ws j :=
    Finset.sum_le_sum_of_subset_of_nonneg (Finset.range_mono hi) fun j _ _ => hn j
  rw [unit, Measure.restrict_apply measurableSet_Ico, Set.inter_eq_left.2, Real.volume_Ico, ← sub_div, Finset.sum_range_succ,
    add_sub_cancel_left]
  intro x hx
  exact ⟨le_trans (div_nonneg (Finset.sum_nonneg fun j _ => hn j) hpos.le) hx.1,
    lt_of_lt_of_le hx.2 ((div_le_one hpos).2 hle)⟩

end

theorem firstOf {A : Set ℝ} (hA : MeasurableSet A) {K : Set (Nat → ℝ)} (hK : MeasurableSet K) :
    MeasurableSet {x : Nat → ℝ | x 0 ∈ A ∧ rest x ∈ K} ∧
      (Measure.infinitePi fun _ : Nat => unit) {x | x 0 ∈ A ∧ rest x ∈ K} = unit A * (Measure.infinitePi fun _ : Nat => unit) K := by
  refine ⟨preserves_first.measurable (hA.prod hK), ?_⟩
  have := preserves_first.measure_preimage (hA.prod hK).nullMeasurableSet
  rw [Measure.prod_prod] at this
  exact this

/-- The draws are an extension of what was drawn. -/
theorem draws_total {h : Nat} {eps : ℝ} (heps : 0 ≤ eps) {fuel : Nat} (hf : h < fuel) {writes : List Nat → List (Nat × ℝ)} (n : Nat)
    {drawn : List Nat} {ws : List (Nat × ℝ)} {t : SegTree ℝ} (ht : Tree h ws t)
    (hp : Proper (2 ^ h) writes n drawn (arrayAfter 0 ws)) {x : Nat → ℝ} (hx : ∀ k, x k ∈ Set.Ico (0 : ℝ) 1) :
    ∃ out, draws eps fuel writes n drawn t x = .ok (drawn ++ out) ∧ out.length = n ∧
      Positive (2 ^ h) writes drawn (arrayAfter 0 ws) out := by
  induction n generalizing drawn ws t x with
  | zero => exact ⟨[], by simp [draws], rfl, trivial⟩
  | succ n ih =>
    obtain ⟨h1, h2, h3⟩ := hp
    rw [changed_after] at h2 h3
    obtain ⟨t', h4, h5⟩ := ht.assign h1
    obtain ⟨i, h6, h7, h8, -⟩ := h5.draw h2 heps hf (hx 0)
    obtain ⟨out, g1, g2, g3⟩ := ih h5 (h3 i h7 h8) (x := fun k => x (k + 1)) (fun k => hx (k + 1))
    refine ⟨i :: out, ?_, by simp [g2], h7, by rw [changed_after]; exact h8, by rw [changed_after]; exact g3⟩
    simp only [draws, h4, h6, g1, List.append_assoc, List.singleton_append]

theorem draws_law {h : Nat} {eps : ℝ} (heps : 0 ≤ eps) {fuel : Nat} (hf : h < fuel) {writes : List Nat → List (Nat × ℝ)}
    (out : List Nat) {drawn : List Nat} {ws : List (Nat × ℝ)} {t : SegTree ℝ} (ht : Tree h ws t)
    (hp : Proper (2 ^ h) writes out.length drawn (arrayAfter 0 ws)) :
    ∃ S : Set (Nat → ℝ), MeasurableSet S ∧
      (Measure.infinitePi fun _ : Nat => unit) S = law (2 ^ h) writes drawn (arrayAfter 0 ws) out ∧
      ∀ x : Nat → ℝ, (∀ k, x k ∈ Set.Ico (0 : ℝ) 1) →
        (draws eps fuel writes out.length drawn t x = .ok (drawn ++ out) ↔ x ∈ S) := by
  induction out generalizing drawn ws t with
  | nil => exact ⟨Set.univ, MeasurableSet.univ, by simp [law], fun x _ => by simp [draws]⟩
  | cons i out ih =>
    obtain ⟨h1, h2, h3⟩ := hp
    rw [changed_after] at h2 h3
    obtain ⟨t', h4, h5⟩ := ht.assign h1
    have hn : ∀ j, 0 ≤ arrayAfter (0 : ℝ) (ws ++ writes drawn) j := after_nonneg fun w hw => (h5.ok w hw).2
    by_cases hi : i < 2 ^ h ∧ 0 < arrayAfter 0 (ws ++ writes drawn) i
    · obtain ⟨K, k1, k2, k3⟩ := ih h5 (h3 i hi.1 hi.2)
      obtain ⟨m1, m2⟩ := firstOf (measurableSet_Ico (a := (∑ j ∈ Finset.range i, arrayAfter 0 (ws ++ writes drawn) j) /
          ∑ j ∈ Finset.range (2 ^ h), arrayAfter 0 (ws ++ writes drawn) j)
        (b := (∑ j ∈ Finset.range (i + 1), arrayAfter 0 (ws ++ writes drawn) j) /
          ∑ j ∈ Finset.range (2 ^ h), arrayAfter 0 (ws ++ writes drawn) j)) k1
      refine ⟨_, m1, ?_, fun x hx => ?_⟩
      · rw [m2, h5.share h2 hi.1, k2, law, changed_after]
      · obtain ⟨i', h6, h7, h8, h9⟩ := h5.draw h2 heps hf (hx 0)
        simp only [List.length_cons, draws, h4, h6, Set.mem_ofPred_eq]
        rw [h9 i hi.1]
        by_cases he : i' = i
        · subst he
          have := k3 (rest x) (fun k => hx (k + 1))
          rw [List.append_assoc, List.singleton_append] at this
          simp only [true_and]
          exact this
        · simp only [he, false_and, iff_false]
          intro hd
          obtain ⟨o, g1, -, -⟩ := draws_total heps hf out.length h5 (h3 i' h7 h8) (x := fun k => x (k + 1)) (fun k => hx (k + 1))
          rw [g1, List.append_assoc] at hd
          injection hd with hd
          have := List.append_cancel_left hd
          rw [List.singleton_append] at this
          injection this with this _
          exact he this
    · have h0 : arrayAfter (0 : ℝ) (ws ++ writes drawn) i = 0 := by
        by_cases hs : i < 2 ^ h
        · exact le_antisymm (not_lt.1 fun hlt => hi ⟨hs, hlt⟩) (hn i)
        · exact after_outside (fun w hw => (h5.ok w hw).1) (not_lt.1 hs)
      refine ⟨∅, MeasurableSet.empty, ?_, fun x hx => ?_⟩
      · rw [law, changed_after, h0]; simp
      · simp only [Set.mem_empty_iff_false, iff_false]
        intro hd
        obtain ⟨i', h6, h7, h8, -⟩ := h5.draw h2 heps hf (hx 0)
        simp only [List.length_cons, draws, h4, h6] at hd
        obtain ⟨o, g1, -, -⟩ := draws_total heps hf out.length h5 (h3 i' h7 h8) (x := fun k => x (k + 1)) (fun k => hx (k + 1))
        rw [g1, List.append_assoc] at hd
        injection hd with hd
        have := List.append_cancel_left hd
        rw [List.singleton_append] at this
        injection this with this _
        rw [this] at h7 h8
        exact hi ⟨h7, h8⟩

theorem ae_numbers : ∀ᵐ x ∂(Measure.infinitePi fun _ : Nat => unit), ∀ k, x k ∈ Set.Ico (0 : ℝ) 1 := by
  rw [ae_all_iff]
  intro k
  exact (measurePreserving_eval_infinitePi (fun _ : Nat => unit) k).quasiMeasurePreserving.ae BatchMean.ae_unit

theorem tree_new (h : Nat) {t0 : SegTree ℝ} (h0 : create ((2 ^ h : Nat) : Int) = .ok t0) : Tree h [] t0 :=
  ⟨by simp, t0, h0, rfl⟩

/-- C156: with independent numbers that are uniform in `[0, 1)`, indices drawn from a tree of any capacity are what the weights say:
however weights are changed between the draws, also depending on what was drawn, each index is drawn in proportion to the weight it has at
that time, independently of everything but that. -/
theorem C156 {h : Nat} {eps : ℝ} (heps : 0 ≤ eps) {fuel : Nat} (hf : h < fuel) {writes : List Nat → List (Nat × ℝ)} {n : Nat}
    {t0 : SegTree ℝ} (h0 : create ((2 ^ h : Nat) : Int) = .ok t0) (hp : Proper (2 ^ h) writes n [] fun _ => 0)
    (out : List Nat) :
    (Measure.infinitePi fun _ : Nat => unit) {x | draws eps fuel writes n [] t0 x = .ok out}
      = if out.length = n then law (2 ^ h) writes [] (fun _ => 0) out else 0 := by
  have ht := tree_new h h0
  split
  · rename_i hl
    subst hl
    obtain ⟨S, h1, h2, h3⟩ := draws_law heps hf out ht hp
    rw [show law (2 ^ h) writes [] (fun _ => 0) out = law (2 ^ h) writes [] (arrayAfter 0 []) out from rfl, ← h2]
    refine measure_congr ?_
    filter_upwards [ae_numbers] with x hx
    exact propext (h3 x hx)
  · rename_i hl
    rw [measure_eq_zero_iff_ae_notMem]
    filter_upwards [ae_numbers] with x hx hd
    obtain ⟨o, g1, g2, -⟩ := draws_total heps hf n ht hp hx
    rw [g1] at hd
    injection hd with hd
    rw [List.nil_append] at hd
    subst hd
    exact hl g2

/-- C156: no draw fails, whatever the numbers are, and nothing is drawn that has no weight at that time. -/
theorem C156_total {h : Nat} {eps : ℝ} (heps : 0 ≤ eps) {fuel : Nat} (hf : h < fuel) {writes : List Nat → List (Nat × ℝ)} {n : Nat}
    {t0 : SegTree ℝ} (h0 : create ((2 ^ h : Nat) : Int) = .ok t0) (hp : Proper (2 ^ h) writes n [] fun _ => 0)
    {x : Nat → ℝ} (hx : ∀ k, x k ∈ Set.Ico (0 : ℝ) 1) :
    ∃ out, draws eps fuel writes n [] t0 x = .ok out ∧ out.length = n ∧ Positive (2 ^ h) writes [] (fun _ => 0) out := by
  obtain ⟨out, g1, g2, g3⟩ := draws_total heps hf n (tree_new h h0) hp hx
  exact ⟨out, g1, g2, g3⟩

/-! ### Weights that stay -/

/-- Weights are assigned before the first draw only. -/
def once (ws : List (Nat × ℝ)) : List Nat → List (Nat × ℝ)
  | [] => ws
  | _ :: _ => []

theorem draws_again {eps : ℝ} {fuel : Nat} {ws : List (Nat × ℝ)} {t : SegTree ℝ} (n : Nat) {drawn : List Nat} (hne : drawn ≠ [])
    {x : Nat → ℝ} {d : Nat → Nat} (hd : ∀ k, draw eps fuel (x k) t = .ok (d k)) :
    draws eps fuel (once ws) n drawn t x = .ok (drawn ++ (List.range n).map d) := by
  induction n generalizing drawn x d with
  | zero => simp [draws]
  | succ n ih =>
    obtain ⟨i, rest, rfl⟩ := List.exists_cons_of_ne_nil hne
    have hw : assign (once ws (i :: rest)) t = (t, .ok ()) := rfl
    simp only [draws, hw, hd 0]
    rw [ih (by simp) (x := fun k => x (k + 1)) (d := fun k => d (k + 1)) (fun k => hd (k + 1)), List.append_assoc,
      List.singleton_append, List.range_succ_eq_map, List.map_cons, List.map_map]
    rfl

theorem count_map (d : Nat → Nat) (i n : Nat) :
    (((List.range n).map d).count i : ℝ) = ∑ k ∈ Finset.range n, if d k = i then (1 : ℝ) else 0 := by
  induction n with
  | zero => simp
  | succ n ih =>
    rw [List.range_succ, List.map_append, List.count_append, Finset.sum_range_succ, ← ih]
    simp [List.count_singleton]

/-- C156: when the weights stay, the share of the draws that an index gets tends to its share of the weights, almost surely and for all
indices. -/
theorem C156_often {h : Nat} {eps : ℝ} (heps : 0 ≤ eps) {fuel : Nat} (hf : h < fuel) {ws : List (Nat × ℝ)}
    {t0 : SegTree ℝ} (h0 : create ((2 ^ h : Nat) : Int) = .ok t0) (hw : ∀ w ∈ ws, w.1 < 2 ^ h ∧ 0 ≤ w.2)
    (hpos : 0 < ∑ j ∈ Finset.range (2 ^ h), changed ws (fun _ => 0) j) :
    ∀ᵐ x ∂(Measure.infinitePi fun _ : Nat => unit), ∃ d : Nat → Nat,
      (∀ n, draws eps fuel (once ws) n [] t0 x = .ok ((List.range n).map d)) ∧
      ∀ i, Filter.Tendsto (fun n : Nat => (((List.range n).map d).count i : ℝ) / n) Filter.atTop
        (nhds (changed ws (fun _ => 0) i / ∑ j ∈ Finset.range (2 ^ h), changed ws (fun _ => 0) j)) := by
  obtain ⟨t, g1, ht⟩ := (tree_new h h0).assign hw
  rw [List.nil_append] at ht
  change 0 < ∑ j ∈ Finset.range (2 ^ h), arrayAfter 0 ws j at hpos
  change ∀ᵐ x ∂_, ∃ d : Nat → Nat, _ ∧ ∀ i, Filter.Tendsto _ _
    (nhds (arrayAfter 0 ws i / ∑ j ∈ Finset.range (2 ^ h), arrayAfter 0 ws j))
  let A : Nat → Set ℝ := fun i => Set.Ico ((∑ j ∈ Finset.range i, arrayAfter 0 ws j) / ∑ j ∈ Finset.range (2 ^ h), arrayAfter 0 ws j)
        ((∑ j ∈ Finset.range (i + 1), arrayAfter 0 ws j) / ∑ j ∈ Finset.range (2 ^ h), arrayAfter 0 ws j)
  have hn : ∀ j, 0 ≤ arrayAfter (0 : ℝ) ws j := after_nonneg fun w hw' => (hw w hw').2
  have hlaw : ∀ i, i < 2 ^ h → ∀ᵐ x ∂(Measure.infinitePi fun _ : Nat => unit),
      Filter.Tendsto (fun n : Nat => (∑ k ∈ Finset.range n, (A i).indicator (fun _ => (1 : ℝ)) (x k)) / n) Filter.atTop
        (nhds (arrayAfter 0 ws i / ∑ j ∈ Finset.range (2 ^ h), arrayAfter 0 ws j)) := by
    intro i hi
    have hm : Measurable ((A i).indicator fun _ : ℝ => (1 : ℝ)) := measurable_const.indicator measurableSet_Ico
    have hev : ∀ k, MeasurePreserving (fun x : Nat → ℝ => x k) (Measure.infinitePi fun _ : Nat => unit) unit :=
      fun k => measurePreserving_eval_infinitePi (fun _ : Nat => unit) k
    have hind := ProbabilityTheory.iIndepFun_infinitePi (P := fun _ : Nat => unit)
      (X := fun _ : Nat => (A i).indicator fun _ : ℝ => (1 : ℝ)) (fun _ => hm)
    have hsl := ProbabilityTheory.strong_law_ae_real (μ := Measure.infinitePi fun _ : Nat => unit)
      (fun k x => (A i).indicator (fun _ => (1 : ℝ)) (x k))
      ((hev 0).integrable_comp_of_integrable ((integrable_const (1 : ℝ)).indicator measurableSet_Ico))
      (fun j k hjk => hind.indepFun hjk)
      (fun k => by
        have : ProbabilityTheory.IdentDistrib (fun x : Nat → ℝ => x k) (fun x : Nat → ℝ => x 0)
            (Measure.infinitePi fun _ : Nat => unit) (Measure.infinitePi fun _ : Nat => unit) :=
          ⟨(hev k).measurable.aemeasurable, (hev 0).measurable.aemeasurable, by rw [(hev k).map_eq, (hev 0).map_eq]⟩
        exact this.comp hm)
    have hint : ∫ x, (A i).indicator (fun _ => (1 : ℝ)) (x 0) ∂(Measure.infinitePi fun _ : Nat => unit)
        = arrayAfter 0 ws i / ∑ j ∈ Finset.range (2 ^ h), arrayAfter 0 ws j := by
      have h1 := integral_map (μ := Measure.infinitePi fun _ : Nat => unit) (hev 0).measurable.aemeasurable (f := (A i).indicator fun _ : ℝ => (1 : ℝ))
        hm.aestronglyMeasurable
      rw [(hev 0).map_eq] at h1
      rw [← h1, integral_indicator measurableSet_Ico, setIntegral_const, smul_eq_mul, mul_one, Measure.real, ht.share hpos hi,
        ENNReal.toReal_ofReal (div_nonneg (hn i) hpos.le)]
    rw [hint] at hsl
    exact hsl
  filter_upwards [ae_numbers, ae_all_iff.2 fun i => ae_all_iff.2 (hlaw i)] with x hx hl
  choose d hd using fun k => ht.draw hpos heps hf (hx k)
  refine ⟨d, fun n => ?_, fun i => ?_⟩
  · cases n with
    | zero => rfl
    | succ n =>
      have hw' : assign (once ws []) t0 = (t, .ok ()) := g1
      simp only [draws, hw', (hd 0).1]
      rw [draws_again n (by simp) (x := fun k => x (k + 1)) (d := fun k => d (k + 1)) (fun k => (hd (k + 1)).1),
        List.nil_append, List.singleton_append, List.range_succ_eq_map, List.map_cons, List.map_map]
      rfl
  · by_cases hi : i < 2 ^ h
    · refine (hl i hi).congr fun n => ?_
      rw [count_map]
      congr 1
      refine Finset.sum_congr rfl fun k _ => ?_
      rw [Set.indicator_apply]
      exact if_congr ((hd k).2.2.2 i hi) rfl rfl
    · rw [after_outside (fun w hw' => (hw w hw').1) (not_lt.1 hi), zero_div]
      refine (tendsto_const_nhds (x := (0 : ℝ))).congr fun n => ?_
      rw [count_map, Finset.sum_eq_zero, zero_div]
      intro k _
      rw [if_neg (by have := (hd k).2.1; omega)]

/-! ## An instance: four slots; two weights are assigned before the first draw, then what was drawn loses its weight -/

namespace Ex

def writes : List Nat → List (Nat × ℝ)
  | [] => [(1, 3), (2, 1)]
  | [i] => [(i, 0), (3, 2)]
  | _ => []

theorem first (j : Nat) : changed (writes []) (fun _ => 0) j = if j = 1 then 3 else if j = 2 then 1 else 0 := by
  simp only [changed, writes, List.foldl_cons, List.foldl_nil]
  split_ifs <;> first | rfl | omega

theorem sum_first : ∑ j ∈ Finset.range 4, changed (writes []) (fun _ => 0) j = 4 := by
  simp only [first, Finset.sum_range_succ, Finset.sum_range_zero]; norm_num

theorem proper : Proper (2 ^ 2) writes 2 [] fun _ => 0 := by
  refine ⟨by simp [writes], by rw [show 2 ^ 2 = 4 from rfl, sum_first]; norm_num, fun i hi hpos => ?_⟩
  refine ⟨?_, ?_, fun _ _ _ => trivial⟩
  · intro w hw
    simp only [List.nil_append, writes, List.mem_cons, List.not_mem_nil, or_false] at hw
    rcases hw with rfl | rfl
    · exact ⟨hi, le_refl _⟩
    · exact ⟨by norm_num, by norm_num⟩
  · have h3 : i ≠ 3 := by rintro rfl; rw [first] at hpos; norm_num at hpos
    refine Finset.sum_pos' (fun j _ => ?_) ⟨3, by simp, ?_⟩
    · simp only [List.nil_append, writes, changed, List.foldl_cons, List.foldl_nil]
      split_ifs <;> norm_num
    · simp only [List.nil_append, writes, changed, List.foldl_cons, List.foldl_nil]
      norm_num

/-- First 1, with three of four parts, then 2, with one of three -/
example {t0 : SegTree ℝ} (h0 : create 4 = .ok t0) :
    (Measure.infinitePi fun _ : Nat => unit) {x | draws (1 / 100000) 1000 writes 2 [] t0 x = .ok [1, 2]} = ENNReal.ofReal (1 / 4) := by
  rw [C156 (h := 2) (by norm_num) (by norm_num) h0 proper, if_pos (show [1, 2].length = 2 from rfl)]
  simp only [law, mul_one, List.nil_append]
  rw [show 2 ^ 2 = 4 from rfl, sum_first, ← ENNReal.ofReal_mul (by rw [first]; norm_num)]
  congr 1
  simp only [writes, changed, Finset.sum_range_succ, Finset.sum_range_zero, List.foldl_cons, List.foldl_nil]
  norm_num

/-- and never twice the same -/
example {t0 : SegTree ℝ} (h0 : create 4 = .ok t0) :
    (Measure.infinitePi fun _ : Nat => unit) {x | draws (1 / 100000) 1000 writes 2 [] t0 x = .ok [1, 1]} = 0 := by
  rw [C156 (h := 2) (by norm_num) (by norm_num) h0 proper, if_pos (show [1, 1].length = 2 from rfl)]
  simp [law, writes, changed]

/-- Index 1 gets three of four draws in the long run. -/
example {t0 : SegTree ℝ} (h0 : create 4 = .ok t0) : ∀ᵐ x ∂(Measure.infinitePi fun _ : Nat => unit), ∃ d : Nat → Nat,
    (∀ n, draws (1 / 100000) 1000 (once [(1, 3), (2, 1)]) n [] t0 x = .ok ((List.range n).map d)) ∧
      Filter.Tendsto (fun n : Nat => (((List.range n).map d).count 1 : ℝ) / n) Filter.atTop (nhds (3 / 4)) := by
  have hs : ∑ j ∈ Finset.range (2 ^ 2), changed [(1, 3), (2, 1)] (fun _ => 0) j = 4 := sum_first
  filter_upwards [C156_often (h := 2) (eps := 1 / 100000) (by norm_num) (fuel := 1000) (by norm_num) (ws := [(1, 3), (2, 1)]) h0
    (by simp) (by rw [hs]; norm_num)] with x ⟨d, h1, h2⟩
  refine ⟨d, h1, ?_⟩
  have := h2 1
  rw [hs] at this
  simpa [changed] using this

end Ex

end TreeDraws

end Verif.Props
