import Verif.Model.MinTree
import Verif.Props.SegmentTree
import Mathlib.Data.List.Induction
import Mathlib.Tactic.IntervalCases

/-!
# C25: the segment tree for minima
-/

namespace Verif.Props

namespace MinTree

open Verif
open Verif.Props.Seg (foldOver arrayAfter)

variable {α : Type u} [LinearOrder α]

/-- `v` is the last value assigned to position `i`, or infinity if there was none. -/
inductive Spec.Holds (i : Nat) (v : WithTop α) (writes : List (Nat × WithTop α)) : Prop
  | last (before after : List (Nat × WithTop α)) (h : writes = before ++ (i, v) :: after) (hn : ∀ w ∈ after, w.1 ≠ i)
  | never (hv : v = ⊤) (hn : ∀ w ∈ writes, w.1 ≠ i)

/-- `v` is the least of the values at the positions `s, …, e - 1`. -/
def Spec.Least (writes : List (Nat × WithTop α)) (s e : Nat) (v : WithTop α) : Prop :=
  (∃ i, s ≤ i ∧ i < e ∧ Spec.Holds i v writes) ∧ ∀ i w, s ≤ i → i < e → Spec.Holds i w writes → v ≤ w

theorem keep (i : Nat) (l : List (Nat × WithTop α)) (hn : ∀ w ∈ l, w.1 ≠ i) (a : WithTop α) :
    l.foldl (fun a w => if w.1 = i then w.2 else a) a = a := by
  induction l with
  | nil => rfl
  | cons w l ih =>
    rw [List.foldl_cons, if_neg (hn w (by simp))]
    exact ih fun x hx => hn x (by simp [hx])

theorem holds_iff (i : Nat) (v : WithTop α) (writes : List (Nat × WithTop α)) : Spec.Holds i v writes ↔ arrayAfter ⊤ writes i = v := by
  constructor
  · rintro (⟨b, a, rfl, hn⟩ | ⟨rfl, hn⟩)
    · rw [arrayAfter, List.foldl_append, List.foldl_cons, if_pos rfl, keep i a hn]
    · exact keep i writes hn _
  · rintro rfl
    induction writes using List.reverseRecOn with
    | nil => exact .never rfl (by simp)
    | append_singleton l w ih =>
      have he : arrayAfter ⊤ (l ++ [w]) i = if w.1 = i then w.2 else arrayAfter ⊤ l i := by simp [arrayAfter]
      rw [he]
      split
      · next h => exact .last l [] (by rw [← h]) (by simp)
      · next h =>
        generalize arrayAfter ⊤ l i = v at ih ⊢
        rcases ih with ⟨b, a, h1, h2⟩ | ⟨h1, h2⟩
        · refine .last b (a ++ [w]) (by rw [h1]; simp) fun x hx => ?_
          rcases List.mem_append.1 hx with hx | hx
          · exact h2 x hx
          · rw [List.mem_singleton.1 hx]; exact h
        · refine .never h1 fun x hx => ?_
          rcases List.mem_append.1 hx with hx | hx
          · exact h2 x hx
          · rw [List.mem_singleton.1 hx]; exact h

theorem fold_min (arr : Nat → WithTop α) (s n : Nat) :
    (∃ i, s ≤ i ∧ i ≤ s + n ∧ arr i = foldOver Min.min arr s n) ∧ ∀ i, s ≤ i → i ≤ s + n → foldOver Min.min arr s n ≤ arr i := by
  induction n with
  | zero => exact ⟨⟨s, le_rfl, le_rfl, rfl⟩, fun i h1 h2 => by rw [show i = s by omega]; exact le_rfl⟩
  | succ n ih =>
    obtain ⟨⟨i, h1, h2, h3⟩, h4⟩ := ih
    simp only [foldOver]
    refine ⟨?_, fun j hj1 hj2 => ?_⟩
    · rcases min_choice (foldOver Min.min arr s n) (arr (s + n + 1)) with h | h
      · exact ⟨i, h1, by omega, by rw [h, h3]⟩
      · exact ⟨s + n + 1, by omega, le_rfl, by rw [h]⟩
    · rcases Nat.lt_or_ge (s + n) j with h | h
      · rw [show j = s + n + 1 by omega]; exact min_le_right _ _
      · exact (min_le_left _ _).trans (h4 j hj1 h)

/-- **C25**, for the tree of minima: after any assignments, `min(start, end)` is the least of the values at `start, …, end - 1`. -/
theorem C25_min (h : Nat) (writes : List (Nat × WithTop α)) (hw : ∀ w ∈ writes, w.1 < 2 ^ h) :
    ∃ t0 t, Verif.MinTree.new ((2 ^ h : Nat) : Int) = .ok t0 ∧
      Res.forEach writes (fun w => Verif.MinTree.setItem w.1 w.2) t0 = (t, .ok ()) ∧
      (∀ fuel, h < fuel → ∀ s e : Nat, s < e → e ≤ 2 ^ h →
        ∃ v, Verif.MinTree.minimum fuel s (some (e : Nat)) t = .ok v ∧ Spec.Least writes s e v) ∧
      (∀ fuel, h < fuel → ∀ s : Nat, s < 2 ^ h → ∃ v, Verif.MinTree.minimum fuel s none t = .ok v ∧ Spec.Least writes s (2 ^ h) v) ∧
      ∀ fuel, h < fuel → ∀ s d : Nat, 0 < d → s + d < 2 ^ h →
        ∃ v, Verif.MinTree.minimum fuel s (some (-(d : Nat))) t = .ok v ∧ Spec.Least writes s (2 ^ h - d) v := by
  obtain ⟨t0, t, h1, h2, -, h4, h5, h6⟩ := C25_reduce (op := (Min.min : WithTop α → WithTop α → WithTop α)) min_assoc (neutral := ⊤)
    (min_self _) h writes hw
  have hl : ∀ s e, s < e → Spec.Least writes s e (foldOver Min.min (arrayAfter ⊤ writes) s (e - s - 1)) := by
    intro s e hse
    obtain ⟨⟨i, g1, g2, g3⟩, g4⟩ := fold_min (arrayAfter ⊤ writes) s (e - s - 1)
    refine ⟨⟨i, g1, by omega, (holds_iff _ _ _).2 g3⟩, fun j w hj1 hj2 hj => ?_⟩
    rw [← (holds_iff _ _ _).1 hj]
    exact g4 j hj1 (by omega)
  refine ⟨t0, t, h1, h2, fun fuel hf s e hse he => ⟨_, h4 fuel hf s e hse he, hl s e hse⟩, fun fuel hf s hs => ⟨_, h5 fuel hf s hs, hl _ _ hs⟩,
    fun fuel hf s d hd hsd => ⟨_, h6 fuel hf s d hd hsd, ?_⟩⟩
  have := hl s (2 ^ h - d) (by omega)
  exact this

example := C25_min (α := ℚ) 2 [(0, 3), (2, 5), (0, 7)] (by decide)

/-- The first position was overwritten; nothing was assigned to the others. -/
example : Spec.Least (α := ℚ) [(0, 3), (2, 5), (0, 7)] 0 4 5 ∧ Spec.Least (α := ℚ) [(0, 3), (2, 5), (0, 7)] 0 2 7 := by
  constructor
  · refine ⟨⟨2, by decide, by decide, .last [(0, 3)] [(0, 7)] rfl (by decide)⟩, fun i w _ hi hw => ?_⟩
    rw [← (holds_iff _ _ _).1 hw]
    interval_cases i <;> simp [arrayAfter]
    exact_mod_cast (by norm_num : (5 : ℚ) ≤ 7)
  · refine ⟨⟨0, by decide, by decide, .last [(0, 3), (2, 5)] [] rfl (by decide)⟩, fun i w _ hi hw => ?_⟩
    rw [← (holds_iff _ _ _).1 hw]
    interval_cases i <;> simp [arrayAfter]

end MinTree

end Verif.Props
