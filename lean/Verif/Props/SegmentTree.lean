import Verif.Model.SegmentTree
import Mathlib.Tactic.Linarith
import Mathlib.Tactic.Ring
import Mathlib.Algebra.Order.Field.Rat

/-!
# C25, C26: segment trees
-/

namespace Verif.Props

open Verif

namespace Seg

variable {α : Type u}

/-! ## Specification -/

/-- The operation folded over `arr s, …, arr (s + n)`. -/
def foldOver (op : α → α → α) (arr : Nat → α) (s : Nat) : Nat → α
  | 0 => arr s
  | n + 1 => op (foldOver op arr s n) (arr (s + n + 1))

/-- The array after some assignments. -/
def arrayAfter (neutral : α) (writes : List (Nat × α)) (i : Nat) : α :=
  writes.foldl (fun a w => if w.1 = i then w.2 else a) neutral

theorem foldOver_split {op : α → α → α} (hop : ∀ a b c, op (op a b) c = op a (op b c)) (arr : Nat → α) (s n m : Nat) :
    foldOver op arr s (n + m + 1) = op (foldOver op arr s n) (foldOver op arr (s + n + 1) m) := by
  induction m with
  | zero => rfl
  | succ m ih =>
    show op (foldOver op arr s (n + m + 1)) _ = op _ (op _ _)
    rw [ih, hop]
    congr 3
    omega

/-! ## The invariant -/

/-- `f` gives the nodes of the tree; the leaves are `arr`, the inner nodes combine their children. -/
structure TreeOk (op : α → α → α) (h : Nat) (t : SegTree α) (arr f : Nat → α) : Prop where
  cap : t.capacity = 2 ^ h
  len : t.value.length = 2 * 2 ^ h
  val : ∀ i, i < 2 * 2 ^ h → t.value[i]? = some (f i)
  leaf : ∀ i, i < 2 ^ h → f (2 ^ h + i) = arr i
  node : ∀ n, 1 ≤ n → n < 2 ^ h → f n = op (f (2 * n)) (f (2 * n + 1))

/-- Inner nodes except for the ancestors of a changed leaf: below `bound` only nodes other than `idx`'s
ancestors (itself included) are right. -/
structure Broken (op : α → α → α) (h idx : Nat) (t : SegTree α) (arr f : Nat → α) : Prop where
  cap : t.capacity = 2 ^ h
  len : t.value.length = 2 * 2 ^ h
  val : ∀ i, i < 2 * 2 ^ h → t.value[i]? = some (f i)
  leaf : ∀ i, i < 2 ^ h → f (2 ^ h + i) = arr i
  node : ∀ n, 1 ≤ n → n < 2 ^ h → (∀ k, n ≠ idx / 2 ^ k) → f n = op (f (2 * n)) (f (2 * n + 1))

theorem set_val {l : List α} {n : Nat} {f : Nat → α} (hl : l.length = n) (h : ∀ i, i < n → l[i]? = some (f i))
    (k : Nat) (v : α) : ∀ i, i < n → (l.set k v)[i]? = some (if i = k then v else f i) := by
  intro i hi
  rw [List.getElem?_set]
  by_cases hik : k = i
  · subst hik; simp [hl, hi]
  · rw [if_neg hik, if_neg (Ne.symm hik)]; exact h i hi

theorem fixUp_ok {op : α → α → α} {h : Nat} (fuel idx : Nat) (hfuel : idx ≤ fuel) (hidx : idx < 2 ^ h)
    {t : SegTree α} {arr f : Nat → α} (hb : Broken op h idx t arr f) :
    ∃ t' f', SegTree.fixUp op fuel idx t = (t', .ok ()) ∧ TreeOk op h t' arr f' := by
  induction fuel generalizing idx t f with
  | zero =>
    refine ⟨t, f, rfl, hb.cap, hb.len, hb.val, hb.leaf, ?_⟩
    intro n h1 h2
    refine hb.node n h1 h2 ?_
    intro k hk
    have : idx = 0 := by omega
    subst this
    simp at hk; omega
  | succ fuel ih =>
    unfold SegTree.fixUp
    by_cases h1 : 1 ≤ idx
    · rw [if_pos h1, hb.val (2 * idx) (by omega), hb.val (2 * idx + 1) (by omega)]
      simp only
      apply ih (idx / 2) (by omega) (by omega)
        (f := fun i => if i = idx then op (f (2 * idx)) (f (2 * idx + 1)) else f i)
      refine ⟨hb.cap, by simp [hb.len], set_val hb.len hb.val _ _, ?_, ?_⟩
      · intro i hi
        rw [if_neg (by omega)]; exact hb.leaf i hi
      · intro n hn1 hn2 hk
        have hne : ∀ m, m = idx → 2 * m ≠ idx ∧ 2 * m + 1 ≠ idx := by omega
        by_cases hni : n = idx
        · subst hni
          rw [if_pos rfl, if_neg (by omega), if_neg (by omega)]
        · rw [if_neg hni]
          have h2 : 2 * n ≠ idx := by
            intro h2; exact hk 0 (by simp; omega)
          have h3 : 2 * n + 1 ≠ idx := by
            intro h2; exact hk 0 (by simp; omega)
          rw [if_neg h2, if_neg h3]
          apply hb.node n hn1 hn2
          intro k hnk
          cases k with
          | zero => simp at hnk; exact hni hnk
          | succ k =>
            apply hk k
            rw [hnk, Nat.pow_succ, Nat.mul_comm, Nat.div_div_eq_div_mul]
    · rw [if_neg h1]
      refine ⟨t, f, rfl, hb.cap, hb.len, hb.val, hb.leaf, ?_⟩
      intro n hn1 hn2
      refine hb.node n hn1 hn2 ?_
      intro k hk
      have : idx = 0 := by omega
      subst this
      simp at hk; omega

theorem setItem_ok {op : α → α → α} {h : Nat} {t : SegTree α} {arr f : Nat → α} (ht : TreeOk op h t arr f)
    {i : Nat} (hi : i < 2 ^ h) (v : α) :
    ∃ t' f', SegTree.setItem op i v t = (t', .ok ()) ∧
      TreeOk op h t' (fun j => if i = j then v else arr j) f' := by
  unfold SegTree.setItem
  have hidx : SegTree.pyIndex t.value.length ((i : Int) + t.capacity) = some (2 ^ h + i) := by
    unfold SegTree.pyIndex
    rw [ht.len, ht.cap]
    rw [if_pos (by omega)]
    congr 1; omega
  simp only [hidx]
  have hup : ((i : Int) + t.capacity) / 2 = (((2 ^ h + i) / 2 : Nat) : Int) := by
    rw [ht.cap]; omega
  rw [hup]
  have hb : Broken op h ((2 ^ h + i) / 2) { t with value := t.value.set (2 ^ h + i) v }
      (fun j => if i = j then v else arr j) (fun j => if j = 2 ^ h + i then v else f j) := by
    refine ⟨ht.cap, by simp [ht.len], set_val ht.len ht.val _ _, ?_, ?_⟩
    · intro j hj
      by_cases hij : i = j
      · subst hij; simp
      · rw [if_neg (by omega), if_neg hij]; exact ht.leaf j hj
    · intro n h1 h2 hk
      have h3 : 2 * n ≠ 2 ^ h + i := by
        intro h3; exact hk 0 (by simp; omega)
      have h4 : 2 * n + 1 ≠ 2 ^ h + i := by
        intro h3; exact hk 0 (by simp; omega)
      rw [if_neg (by omega), if_neg h3, if_neg h4]
      exact ht.node n h1 h2
  split
  · rw [Int.toNat_natCast]
    exact fixUp_ok _ _ (Nat.le_refl _) (by omega) hb
  · rename_i hlt
    have h0 : (2 ^ h + i) / 2 = 0 := by omega
    rw [h0] at hb
    refine ⟨_, _, rfl, hb.cap, hb.len, hb.val, hb.leaf, ?_⟩
    intro n h1 h2
    refine hb.node n h1 h2 ?_
    intro k hk
    simp at hk; omega

theorem new_ok {op : α → α → α} {neutral : α} (hn : op neutral neutral = neutral) (h : Nat) :
    ∃ t f, SegTree.new (((2 ^ h : Nat)) : Int) neutral = .ok t ∧ TreeOk op h t (fun _ => neutral) f := by
  refine ⟨⟨2 ^ h, List.replicate (2 * 2 ^ h) neutral⟩, fun _ => neutral, ?_, rfl, by simp, ?_, fun _ _ => rfl,
    fun _ _ _ => hn.symm⟩
  · unfold SegTree.new
    have hpos : 0 < 2 ^ h := Nat.two_pow_pos h
    rw [if_pos]
    · rw [Int.toNat_natCast]
    · refine ⟨by exact_mod_cast hpos, ?_⟩
      rw [Int.toNat_natCast]
      apply Nat.eq_of_testBit_eq
      intro i
      simp only [Nat.testBit_and, Nat.testBit_two_pow, Nat.testBit_two_pow_sub_one, Nat.zero_testBit]
      by_cases hi : h = i
      · simp [hi]
      · simp [hi]
  · intro i hi
    simp [hi]

/-! ## Reduction -/

/-- A node holds the fold over the leaves below it. -/
theorem node_fold {op : α → α → α} (hop : ∀ a b c, op (op a b) c = op a (op b c)) {h : Nat} {t : SegTree α}
    {arr f : Nat → α} (ht : TreeOk op h t arr f) (k j : Nat) (hk : k ≤ h) (hj : j < 2 ^ (h - k)) :
    f (2 ^ (h - k) + j) = foldOver op arr (j * 2 ^ k) (2 ^ k - 1) := by
  induction k generalizing j with
  | zero => simpa [foldOver] using ht.leaf j (by simpa using hj)
  | succ k ih =>
    have hpow : 2 ^ (h - k) = 2 * 2 ^ (h - (k + 1)) := by
      rw [show h - k = (h - (k + 1)) + 1 by omega, Nat.pow_succ]; omega
    have h1 := ih (2 * j) (by omega) (by omega)
    have h2 := ih (2 * j + 1) (by omega) (by omega)
    have hlt : 2 ^ (h - (k + 1)) + j < 2 ^ h := by
      have : 2 * 2 ^ (h - (k + 1)) ≤ 2 ^ h := by
        rw [← hpow]; exact Nat.pow_le_pow_right (by omega) (by omega)
      omega
    have hp1 : 1 ≤ 2 ^ (h - (k + 1)) := Nat.one_le_two_pow
    have hpk : 1 ≤ 2 ^ k := Nat.one_le_two_pow
    rw [ht.node _ (by omega) hlt]
    rw [show 2 * (2 ^ (h - (k + 1)) + j) = 2 ^ (h - k) + 2 * j by omega,
      show 2 ^ (h - k) + 2 * j + 1 = 2 ^ (h - k) + (2 * j + 1) by omega, h1, h2]
    have hsum : 2 ^ (k + 1) - 1 = (2 ^ k - 1) + (2 ^ k - 1) + 1 := by rw [Nat.pow_succ]; omega
    rw [hsum, foldOver_split hop]
    have e1 : j * 2 ^ (k + 1) = 2 * j * 2 ^ k := by rw [Nat.pow_succ]; ring
    rw [e1]
    congr 2
    have : (2 * j + 1) * 2 ^ k = 2 * j * 2 ^ k + 2 ^ k := by ring
    omega

theorem reduceHelper_ok {op : α → α → α} (hop : ∀ a b c, op (op a b) c = op a (op b c)) {h : Nat} {t : SegTree α}
    {arr f : Nat → α} (ht : TreeOk op h t arr f) (k : Nat) (hk : k ≤ h) (fuel : Nat) (hf : k < fuel) (j : Nat)
    (hj : j < 2 ^ (h - k)) (s e : Nat) (hs : j * 2 ^ k ≤ s) (hse : s ≤ e) (he : e < (j + 1) * 2 ^ k) :
    SegTree.reduceHelper op t fuel s e ((2 ^ (h - k) + j : Nat) : Int) ((j * 2 ^ k : Nat) : Int)
      (((j + 1) * 2 ^ k : Nat) - 1 : Int) = .ok (foldOver op arr s (e - s)) := by
  induction k generalizing fuel j s e with
  | zero =>
    obtain ⟨fuel, rfl⟩ : ∃ n, fuel = n + 1 := ⟨fuel - 1, by omega⟩
    unfold SegTree.reduceHelper
    simp only [Nat.pow_zero, Nat.mul_one] at hs he ⊢
    rw [if_pos (by push_cast; omega)]
    have hse' : s = e := by omega
    have hsj : j = s := by omega
    subst hse'
    subst hsj
    have hlt : 2 ^ h + j < 2 * 2 ^ h := by simp only [Nat.sub_zero] at hj; omega
    unfold SegTree.val SegTree.pyIndex
    rw [ht.len, Nat.sub_zero, if_pos (by constructor <;> omega)]
    simp only [Int.toNat_natCast]
    rw [ht.val _ hlt]
    simp only [Nat.sub_self, foldOver]
    rw [ht.leaf j (by simpa using hj)]
  | succ k ih =>
    obtain ⟨fuel, rfl⟩ : ∃ n, fuel = n + 1 := ⟨fuel - 1, by omega⟩
    have hpow : 2 ^ (h - k) = 2 * 2 ^ (h - (k + 1)) := by
      rw [show h - k = (h - (k + 1)) + 1 by omega, Nat.pow_succ]; omega
    have hpk : 1 ≤ 2 ^ k := Nat.one_le_two_pow
    have hp1 : 1 ≤ 2 ^ (h - (k + 1)) := Nat.one_le_two_pow
    have e1 : j * 2 ^ (k + 1) = 2 * j * 2 ^ k := by rw [Nat.pow_succ]; ring
    have e2 : (2 * j + 1) * 2 ^ k = 2 * j * 2 ^ k + 2 ^ k := by ring
    have e3 : (j + 1) * 2 ^ (k + 1) = 2 * j * 2 ^ k + 2 ^ k + 2 ^ k := by rw [Nat.pow_succ]; ring
    have e4 : (2 * j + 1 + 1) * 2 ^ k = 2 * j * 2 ^ k + 2 ^ k + 2 ^ k := by ring
    unfold SegTree.reduceHelper
    split
    · rename_i heq
      have hs' : s = j * 2 ^ (k + 1) := by omega
      have he' : e - s = 2 ^ (k + 1) - 1 := by rw [Nat.pow_succ] at *; omega
      rw [he', hs', ← node_fold hop ht (k + 1) j hk hj]
      have hlt : 2 ^ (h - (k + 1)) + j < 2 * 2 ^ h := by
        have : 2 ^ (h - (k + 1)) ≤ 2 ^ h := Nat.pow_le_pow_right (by omega) (by omega)
        omega
      unfold SegTree.val SegTree.pyIndex
      rw [ht.len, if_pos (by constructor <;> omega)]
      simp only [Int.toNat_natCast]
      rw [ht.val _ hlt]
    · have hmid : (((j * 2 ^ (k + 1) : Nat) : Int) + (((j + 1) * 2 ^ (k + 1) : Nat) - 1 : Int)) / 2
          = ((2 * j + 1) * 2 ^ k : Nat) - 1 := by
        rw [e1, e2, e3]; push_cast; omega
      have ihl := fun s e a b c => ih (by omega) fuel (by omega) (2 * j) (by omega) s e a b c
      have ihr := fun s e a b c => ih (by omega) fuel (by omega) (2 * j + 1) (by omega) s e a b c
      have n1 : 2 * ((2 ^ (h - (k + 1)) + j : Nat) : Int) = ((2 ^ (h - k) + 2 * j : Nat) : Int) := by
        rw [hpow]; push_cast; ring
      have n2 : 2 * ((2 ^ (h - (k + 1)) + j : Nat) : Int) + 1 = ((2 ^ (h - k) + (2 * j + 1) : Nat) : Int) := by
        rw [hpow]; push_cast; ring
      have m1 : ((2 * j + 1) * 2 ^ k : Nat) - 1 + 1 = (((2 * j + 1) * 2 ^ k : Nat) : Int) := by omega
      have m2 : (((j + 1) * 2 ^ (k + 1) : Nat) - 1 : Int) = ((2 * j + 1 + 1) * 2 ^ k : Nat) - 1 := by
        rw [e3, e4]
      simp only [hmid]
      split
      · rename_i hle
        rw [n1, e1]
        exact ihl s e (by omega) hse (by omega)
      · rename_i hgt
        split
        · rename_i hge
          rw [n2, m1, m2]
          exact ihr s e (by omega) hse (by omega)
        · rename_i hlt
          rw [n2, n1, m1, m2, e1]
          have hl := ihl s ((2 * j + 1) * 2 ^ k - 1) (by omega) (by omega) (by omega)
          have hr := ihr ((2 * j + 1) * 2 ^ k) e (by omega) (by omega) (by omega)
          rw [show (((2 * j + 1) * 2 ^ k - 1 : Nat) : Int) = ((2 * j + 1) * 2 ^ k : Nat) - 1 by omega] at hl
          rw [hl, hr]
          simp only [bind, Except.bind, Except.ok.injEq]
          have : e - s = ((2 * j + 1) * 2 ^ k - 1 - s) + (e - (2 * j + 1) * 2 ^ k) + 1 := by omega
          rw [this, foldOver_split hop]
          congr 2
          omega

/-! ## C25 -/

/-- Assignments one after the other. -/
def writeAll (op : α → α → α) (writes : List (Nat × α)) (t : SegTree α) : Res (SegTree α) Unit :=
  Res.forEach writes (fun w => SegTree.setItem op w.1 w.2) t

theorem writeAll_ok {op : α → α → α} {h : Nat} (writes : List (Nat × α)) (hw : ∀ w ∈ writes, w.1 < 2 ^ h)
    {t : SegTree α} {arr f : Nat → α} (ht : TreeOk op h t arr f) :
    ∃ t' f', writeAll op writes t = (t', .ok ()) ∧
      TreeOk op h t' (fun i => writes.foldl (fun a w => if w.1 = i then w.2 else a) (arr i)) f' := by
  induction writes generalizing t arr f with
  | nil => exact ⟨t, f, rfl, ht⟩
  | cons w ws ih =>
    obtain ⟨t1, f1, h1, h2⟩ := setItem_ok ht (hw w (by simp)) w.2
    obtain ⟨t2, f2, h3, h4⟩ := ih (fun w h => hw w (by simp [h])) h2
    refine ⟨t2, f2, ?_, h4⟩
    unfold writeAll at h3 ⊢
    simp only [Res.forEach, h1, Res.andThen_ok]
    exact h3

end Seg

open Seg

/-- C25: a tree of any power-of-two capacity can be made; after any assignments within the capacity (none of
which fails), each element is the last one assigned, and `reduce(start, end)` is the fold over
`start, …, end - 1` for every non-empty range, however `end` is given. The operation has to be associative and
the neutral element idempotent. -/
theorem C25_reduce {α : Type u} {op : α → α → α} (hop : ∀ a b c, op (op a b) c = op a (op b c)) {neutral : α}
    (hn : op neutral neutral = neutral) (h : Nat) (writes : List (Nat × α)) (hw : ∀ w ∈ writes, w.1 < 2 ^ h) :
    ∃ t0 t, SegTree.new ((2 ^ h : Nat) : Int) neutral = .ok t0 ∧ writeAll op writes t0 = (t, .ok ()) ∧
      (∀ i : Nat, i < 2 ^ h → t.getItem i = .ok (arrayAfter neutral writes i)) ∧
      (∀ fuel, h < fuel → ∀ s e : Nat, s < e → e ≤ 2 ^ h →
        t.reduce op fuel s (some (e : Nat)) = .ok (foldOver op (arrayAfter neutral writes) s (e - s - 1))) ∧
      (∀ fuel, h < fuel → ∀ s : Nat, s < 2 ^ h →
        t.reduce op fuel s none = .ok (foldOver op (arrayAfter neutral writes) s (2 ^ h - s - 1))) ∧
      (∀ fuel, h < fuel → ∀ s d : Nat, 0 < d → s + d < 2 ^ h →
        t.reduce op fuel s (some (-(d : Nat)))
          = .ok (foldOver op (arrayAfter neutral writes) s (2 ^ h - d - s - 1))) := by
  obtain ⟨t0, f0, h1, h2⟩ := Seg.new_ok hn h
  obtain ⟨t, f, h3, h4⟩ := writeAll_ok writes hw h2
  have hpos : 0 < 2 ^ h := Nat.two_pow_pos h
  have core : ∀ fuel, h < fuel → ∀ s e : Nat, s ≤ e → e < 2 ^ h →
      SegTree.reduceHelper op t fuel s e 1 0 ((t.capacity : Int) - 1)
        = .ok (foldOver op (arrayAfter neutral writes) s (e - s)) := by
    intro fuel hf s e hse he
    have := reduceHelper_ok hop h4 h (Nat.le_refl h) fuel hf 0 (by simp) s e (by simp) hse (by simpa using he)
    simp only [Nat.sub_self, Nat.pow_zero, Nat.add_zero, Nat.zero_mul, Nat.zero_add, Nat.one_mul] at this
    rw [h4.cap]
    exact this
  refine ⟨t0, t, h1, h3, ?_, ?_, ?_, ?_⟩
  · intro i hi
    unfold SegTree.getItem SegTree.val SegTree.pyIndex
    rw [h4.cap, if_pos (by constructor <;> omega), h4.len,
      if_pos (by constructor <;> omega)]
    have : (((2 ^ h : Nat) : Int) + i).toNat = 2 ^ h + i := by omega
    simp only [this]
    rw [h4.val _ (by omega)]
    simp only
    rw [h4.leaf i hi]
    rfl
  · intro fuel hf s e hse he
    unfold SegTree.reduce
    simp only
    rw [if_neg (by omega), show (e : Int) - 1 = ((e - 1 : Nat) : Int) by omega, core fuel hf s (e - 1) (by omega)
      (by omega)]
    congr 2; omega
  · intro fuel hf s hs
    unfold SegTree.reduce
    simp only
    rw [if_neg (by omega)]
    have : (t.capacity : Int) - 1 = ((2 ^ h - 1 : Nat) : Int) := by rw [h4.cap]; omega
    have hc := core fuel hf s (2 ^ h - 1) (by omega) (by omega)
    rw [← this] at hc
    rw [hc]
    congr 2; omega
  · intro fuel hf s d hd hsd
    unfold SegTree.reduce
    simp only
    rw [if_pos (by omega)]
    have : -(d : Int) + t.capacity - 1 = ((2 ^ h - d - 1 : Nat) : Int) := by rw [h4.cap]; omega
    rw [this, core fuel hf s _ (by omega) (by omega)]
    congr 2; omega

/-! ## C26 -/

section Sum

variable {α : Type u} [Field α] [LinearOrder α] [IsStrictOrderedRing α]

/-- `arr 0 + … + arr (i - 1)` -/
def prefixSum (arr : Nat → α) : Nat → α
  | 0 => 0
  | i + 1 => prefixSum arr i + arr i

theorem prefixSum_fold (arr : Nat → α) (s n : Nat) :
    prefixSum arr (s + n + 1) = prefixSum arr s + foldOver (· + ·) arr s n := by
  induction n with
  | zero => rfl
  | succ n ih =>
    show prefixSum arr (s + n + 1) + _ = _ + (foldOver (· + ·) arr s n + _)
    rw [ih, add_assoc]; rfl

theorem prefixSum_mono {arr : Nat → α} {n : Nat} (h : ∀ i, i < n → 0 ≤ arr i) {i j : Nat} (hij : i ≤ j) (hj : j ≤ n) :
    prefixSum arr i ≤ prefixSum arr j := by
  induction j with
  | zero => rw [show i = 0 by omega]
  | succ j ih =>
    by_cases hi : i = j + 1
    · rw [hi]
    · have := ih (by omega) (by omega)
      have := h j (by omega)
      show _ ≤ prefixSum arr j + arr j
      linarith

theorem findLoop_ok {h : Nat} {t : SegTree α} {arr f : Nat → α} (ht : TreeOk (· + ·) h t arr f) (k : Nat)
    (hk : k ≤ h) (fuel : Nat) (hf : k < fuel) (j : Nat) (hj : j < 2 ^ (h - k)) (p : α) (hp0 : 0 ≤ p)
    (hp : p < foldOver (· + ·) arr (j * 2 ^ k) (2 ^ k - 1)) :
    ∃ i, SegTree.findLoop t fuel (2 ^ (h - k) + j) p = .ok i ∧ i < 2 ^ h ∧
      prefixSum arr i ≤ prefixSum arr (j * 2 ^ k) + p ∧ prefixSum arr (j * 2 ^ k) + p < prefixSum arr (i + 1) := by
  induction k generalizing fuel j p with
  | zero =>
    obtain ⟨fuel, rfl⟩ : ∃ n, fuel = n + 1 := ⟨fuel - 1, by omega⟩
    unfold SegTree.findLoop
    simp only [Nat.sub_zero] at hj
    rw [Nat.sub_zero, ht.cap, if_neg (by omega)]
    simp only [Nat.pow_zero, Nat.mul_one, Nat.sub_self, foldOver] at hp ⊢
    refine ⟨j, by congr 1; omega, hj, by linarith, ?_⟩
    show _ < prefixSum arr j + arr j
    linarith
  | succ k ih =>
    obtain ⟨fuel, rfl⟩ : ∃ n, fuel = n + 1 := ⟨fuel - 1, by omega⟩
    have hpow : 2 ^ (h - k) = 2 * 2 ^ (h - (k + 1)) := by
      rw [show h - k = (h - (k + 1)) + 1 by omega, Nat.pow_succ]; omega
    have hpk : 1 ≤ 2 ^ k := Nat.one_le_two_pow
    have e1 : j * 2 ^ (k + 1) = 2 * j * 2 ^ k := by rw [Nat.pow_succ]; ring
    have e2 : (2 * j + 1) * 2 ^ k = 2 * j * 2 ^ k + 2 ^ k := by ring
    have hlt : 2 ^ (h - (k + 1)) + j < 2 ^ h := by
      have : 2 * 2 ^ (h - (k + 1)) ≤ 2 ^ h := by
        rw [← hpow]; exact Nat.pow_le_pow_right (by omega) (by omega)
      omega
    unfold SegTree.findLoop
    rw [ht.cap, if_pos hlt, ht.val _ (by omega)]
    simp only
    have hleft := node_fold (fun a b c => add_assoc a b c) ht k (2 * j) (by omega) (by omega)
    have n1 : 2 * (2 ^ (h - (k + 1)) + j) = 2 ^ (h - k) + 2 * j := by omega
    have n2 : 2 ^ (h - k) + 2 * j + 1 = 2 ^ (h - k) + (2 * j + 1) := by omega
    rw [n1, hleft, n2]
    have hsplit : foldOver (· + ·) arr (j * 2 ^ (k + 1)) (2 ^ (k + 1) - 1)
        = foldOver (· + ·) arr (2 * j * 2 ^ k) (2 ^ k - 1)
          + foldOver (· + ·) arr ((2 * j + 1) * 2 ^ k) (2 ^ k - 1) := by
      rw [show 2 ^ (k + 1) - 1 = (2 ^ k - 1) + (2 ^ k - 1) + 1 by rw [Nat.pow_succ]; omega,
        foldOver_split (fun a b c => add_assoc a b c), e1]
      congr 2; omega
    rw [hsplit] at hp
    split
    · rename_i hgt
      obtain ⟨i, a, b, c, d⟩ := ih (by omega) fuel (by omega) (2 * j) (by omega) p hp0 hgt
      exact ⟨i, a, b, by rw [e1]; exact c, by rw [e1]; exact d⟩
    · rename_i hle
      obtain ⟨i, a, b, c, d⟩ := ih (by omega) fuel (by omega) (2 * j + 1) (by omega)
        (p - foldOver (· + ·) arr (2 * j * 2 ^ k) (2 ^ k - 1)) (by linarith [not_lt.1 hle]) (by linarith)
      have hpre : prefixSum arr ((2 * j + 1) * 2 ^ k)
          = prefixSum arr (2 * j * 2 ^ k) + foldOver (· + ·) arr (2 * j * 2 ^ k) (2 ^ k - 1) := by
        rw [← prefixSum_fold]; congr 1; omega
      rw [hpre] at c d
      refine ⟨i, a, b, ?_, ?_⟩
      · rw [e1]; linarith
      · rw [e1]; linarith

/-- Beyond the sum the search runs to the last leaf. -/
theorem findLoop_beyond {h : Nat} {t : SegTree α} {arr f : Nat → α} (ht : TreeOk (· + ·) h t arr f) (k : Nat)
    (hk : k ≤ h) (fuel : Nat) (hf : k < fuel) (j : Nat) (hj : j < 2 ^ (h - k)) (p : α)
    (hpos : ∀ i, i < 2 ^ h → 0 ≤ arr i)
    (hp : foldOver (· + ·) arr (j * 2 ^ k) (2 ^ k - 1) ≤ p) :
    SegTree.findLoop t fuel (2 ^ (h - k) + j) p = .ok (j * 2 ^ k + 2 ^ k - 1) := by
  induction k generalizing fuel j p with
  | zero =>
    obtain ⟨fuel, rfl⟩ : ∃ n, fuel = n + 1 := ⟨fuel - 1, by omega⟩
    unfold SegTree.findLoop
    simp only [Nat.sub_zero] at hj
    rw [Nat.sub_zero, ht.cap, if_neg (by omega)]
    congr 1; simp
  | succ k ih =>
    obtain ⟨fuel, rfl⟩ : ∃ n, fuel = n + 1 := ⟨fuel - 1, by omega⟩
    have hpow : 2 ^ (h - k) = 2 * 2 ^ (h - (k + 1)) := by
      rw [show h - k = (h - (k + 1)) + 1 by omega, Nat.pow_succ]; omega
    have hpk : 1 ≤ 2 ^ k := Nat.one_le_two_pow
    have e1 : j * 2 ^ (k + 1) = 2 * j * 2 ^ k := by rw [Nat.pow_succ]; ring
    have e2 : (2 * j + 1) * 2 ^ k = 2 * j * 2 ^ k + 2 ^ k := by ring
    have hle : 2 * 2 ^ (h - (k + 1)) ≤ 2 ^ h := by
      rw [← hpow]; exact Nat.pow_le_pow_right (by omega) (by omega)
    unfold SegTree.findLoop
    rw [ht.cap, if_pos (by omega), ht.val _ (by omega)]
    simp only
    have hleft := node_fold (fun a b c => add_assoc a b c) ht k (2 * j) (by omega) (by omega)
    have n1 : 2 * (2 ^ (h - (k + 1)) + j) = 2 ^ (h - k) + 2 * j := by omega
    have n2 : 2 ^ (h - k) + 2 * j + 1 = 2 ^ (h - k) + (2 * j + 1) := by omega
    rw [n1, hleft, n2]
    have hsplit : foldOver (· + ·) arr (j * 2 ^ (k + 1)) (2 ^ (k + 1) - 1)
        = foldOver (· + ·) arr (2 * j * 2 ^ k) (2 ^ k - 1)
          + foldOver (· + ·) arr ((2 * j + 1) * 2 ^ k) (2 ^ k - 1) := by
      rw [show 2 ^ (k + 1) - 1 = (2 ^ k - 1) + (2 ^ k - 1) + 1 by rw [Nat.pow_succ]; omega,
        foldOver_split (fun a b c => add_assoc a b c), e1]
      congr 2; omega
    rw [hsplit] at hp
    have hbound : (2 * j + 1) * 2 ^ k + 2 ^ k ≤ 2 ^ h := by
      have h1 : (j + 1) * 2 ^ (k + 1) ≤ 2 ^ (h - (k + 1)) * 2 ^ (k + 1) := Nat.mul_le_mul_right _ (by omega)
      rw [← Nat.pow_add, show h - (k + 1) + (k + 1) = h by omega] at h1
      have : (j + 1) * 2 ^ (k + 1) = 2 * j * 2 ^ k + 2 ^ k + 2 ^ k := by rw [Nat.pow_succ]; ring
      omega
    have hnn : 0 ≤ foldOver (· + ·) arr ((2 * j + 1) * 2 ^ k) (2 ^ k - 1) := by
      have h1 := prefixSum_fold arr ((2 * j + 1) * 2 ^ k) (2 ^ k - 1)
      have h2 := prefixSum_mono hpos (i := (2 * j + 1) * 2 ^ k) (j := (2 * j + 1) * 2 ^ k + (2 ^ k - 1) + 1)
        (by omega) (by omega)
      linarith
    rw [if_neg (by rw [not_lt]; linarith)]
    rw [ih (by omega) fuel (by omega) (2 * j + 1) (by omega) _ (by linarith)]
    congr 1
    rw [e1, Nat.pow_succ]; omega

/-- C26: for non-negative entries and `0 ≤ p < sum()`, the search returns the one index whose interval of
partial sums contains `p`; so the entry there is positive. -/
theorem C26_prefix_sum (h : Nat) (writes : List (Nat × α)) (hw : ∀ w ∈ writes, w.1 < 2 ^ h ∧ 0 ≤ w.2)
    {t0 t : SegTree α} (h0 : SegTree.new ((2 ^ h : Nat) : Int) 0 = .ok t0)
    (ht : writeAll (· + ·) writes t0 = (t, .ok ())) {eps : α} (heps : 0 ≤ eps) {fuel : Nat} (hf : h < fuel) {p : α}
    (hp0 : 0 ≤ p) (hp : p < prefixSum (arrayAfter 0 writes) (2 ^ h)) :
    ∃ i, SegTree.findPrefixSum eps fuel p t = .ok i ∧ i < 2 ^ h ∧ 0 < arrayAfter 0 writes i ∧
      (prefixSum (arrayAfter 0 writes) i ≤ p ∧ p < prefixSum (arrayAfter 0 writes) (i + 1)) ∧
      ∀ i', i' < 2 ^ h → prefixSum (arrayAfter 0 writes) i' ≤ p → p < prefixSum (arrayAfter 0 writes) (i' + 1) →
        i' = i := by
  obtain ⟨t0', f0, h1, h2⟩ := Seg.new_ok (op := (· + ·)) (neutral := (0 : α)) (by simp) h
  rw [h0] at h1; injection h1 with h1; subst h1
  obtain ⟨t', f, h3, h4⟩ := writeAll_ok writes (fun w h => (hw w h).1) h2
  rw [ht] at h3; injection h3 with h3 _; subst h3
  have hpos : 0 < 2 ^ h := Nat.two_pow_pos h
  have hpos' : ∀ i, 0 ≤ arrayAfter (0 : α) writes i := by
    intro i
    unfold arrayAfter
    have : ∀ (ws : List (Nat × α)) (a : α), (∀ w ∈ ws, 0 ≤ w.2) → 0 ≤ a →
        0 ≤ ws.foldl (fun a w => if w.1 = i then w.2 else a) a := by
      intro ws
      induction ws with
      | nil => intro a _ ha; exact ha
      | cons w ws ih =>
        intro a hws ha
        apply ih _ (fun w h => hws w (by simp [h]))
        show 0 ≤ if w.1 = i then w.2 else a
        split
        · exact hws w (by simp)
        · exact ha
    exact this writes 0 (fun w h => (hw w h).2) (le_refl 0)
  have hsum := prefixSum_fold (arrayAfter (0 : α) writes) 0 (2 ^ h - 1)
  rw [show 0 + (2 ^ h - 1) + 1 = 2 ^ h by omega] at hsum
  simp only [prefixSum, zero_add] at hsum
  obtain ⟨t0', t', hn', hw', _, _, hred, _⟩ := C25_reduce (op := (· + ·)) (fun a b c => add_assoc a b c)
    (neutral := (0 : α)) (by simp) h writes (fun w h => (hw w h).1)
  rw [h0] at hn'; injection hn' with hn'; subst hn'
  rw [ht] at hw'; injection hw' with hw' _; subst hw'
  have hr := hred fuel hf 0 hpos
  simp only [Nat.sub_zero] at hr
  obtain ⟨i, a, b, c, d⟩ := findLoop_ok h4 h (Nat.le_refl h) (t.capacity + 1)
    (by rw [h4.cap]; exact Nat.lt_succ_of_lt Nat.lt_two_pow_self) 0 (by simp) p hp0
    (by rw [Nat.zero_mul]; exact hsum ▸ hp)
  simp only [Nat.zero_mul, prefixSum, zero_add, Nat.sub_self, Nat.pow_zero, Nat.add_zero] at a c d
  refine ⟨i, ?_, b, ?_, ⟨c, d⟩, ?_⟩
  · unfold SegTree.findPrefixSum
    simp only [Nat.cast_zero] at hr
    rw [hr]
    simp only
    rw [if_pos ⟨hp0, by rw [← hsum]; linarith⟩]
    exact a
  · have hd : p < prefixSum (arrayAfter 0 writes) i + arrayAfter 0 writes i := d
    have hc : prefixSum (arrayAfter 0 writes) i ≤ p := c
    linarith
  · intro i' hi' c' d'
    by_contra hne
    rcases Nat.lt_or_gt_of_ne hne with hlt | hgt
    · have := prefixSum_mono (arr := arrayAfter 0 writes) (n := 2 ^ h) (fun i _ => hpos' i) (i := i' + 1) (j := i)
        hlt (by omega)
      exact absurd (lt_of_lt_of_le d' this) (not_lt.2 c)
    · have := prefixSum_mono (arr := arrayAfter 0 writes) (n := 2 ^ h) (fun i _ => hpos' i) (i := i + 1) (j := i')
        hgt (by omega)
      exact absurd (lt_of_lt_of_le d this) (not_lt.2 c')

/-- C26, what the docstring does not say: at `p = sum()` and up to the tolerance above it, which the function
accepts, the last slot of the tree is returned, whatever its weight. -/
theorem C26_at_the_end (h : Nat) (writes : List (Nat × α)) (hw : ∀ w ∈ writes, w.1 < 2 ^ h ∧ 0 ≤ w.2)
    {t0 t : SegTree α} (h0 : SegTree.new ((2 ^ h : Nat) : Int) 0 = .ok t0)
    (ht : writeAll (· + ·) writes t0 = (t, .ok ())) {eps : α} {fuel : Nat} (hf : h < fuel) {p : α}
    (hp0 : 0 ≤ p) (hp : prefixSum (arrayAfter 0 writes) (2 ^ h) ≤ p)
    (hpe : p ≤ prefixSum (arrayAfter 0 writes) (2 ^ h) + eps) :
    SegTree.findPrefixSum eps fuel p t = .ok (2 ^ h - 1) := by
  obtain ⟨t0', f0, h1, h2⟩ := Seg.new_ok (op := (· + ·)) (neutral := (0 : α)) (by simp) h
  rw [h0] at h1; injection h1 with h1; subst h1
  obtain ⟨t', f, h3, h4⟩ := writeAll_ok writes (fun w h => (hw w h).1) h2
  rw [ht] at h3; injection h3 with h3 _; subst h3
  have hpos : 0 < 2 ^ h := Nat.two_pow_pos h
  have hpos' : ∀ i, 0 ≤ arrayAfter (0 : α) writes i := by
    intro i
    unfold arrayAfter
    have : ∀ (ws : List (Nat × α)) (a : α), (∀ w ∈ ws, 0 ≤ w.2) → 0 ≤ a →
        0 ≤ ws.foldl (fun a w => if w.1 = i then w.2 else a) a := by
      intro ws
      induction ws with
      | nil => intro a _ ha; exact ha
      | cons w ws ih =>
        intro a hws ha
        apply ih _ (fun w h => hws w (by simp [h]))
        show 0 ≤ if w.1 = i then w.2 else a
        split
        · exact hws w (by simp)
        · exact ha
    exact this writes 0 (fun w h => (hw w h).2) (le_refl 0)
  have hsum := prefixSum_fold (arrayAfter (0 : α) writes) 0 (2 ^ h - 1)
  rw [show 0 + (2 ^ h - 1) + 1 = 2 ^ h by omega] at hsum
  simp only [prefixSum, zero_add] at hsum
  obtain ⟨t0', t', hn', hw', _, _, hred, _⟩ := C25_reduce (op := (· + ·)) (fun a b c => add_assoc a b c)
    (neutral := (0 : α)) (by simp) h writes (fun w h => (hw w h).1)
  rw [h0] at hn'; injection hn' with hn'; subst hn'
  rw [ht] at hw'; injection hw' with hw' _; subst hw'
  have hr := hred fuel hf 0 hpos
  simp only [Nat.sub_zero] at hr
  have := findLoop_beyond h4 h (Nat.le_refl h) (t.capacity + 1)
    (by rw [h4.cap]; exact Nat.lt_succ_of_lt Nat.lt_two_pow_self) 0 (by simp) p (fun i _ => hpos' i)
    (by rw [Nat.zero_mul]; exact hsum ▸ hp)
  simp only [Nat.zero_mul, zero_add, Nat.sub_self, Nat.pow_zero, Nat.add_zero] at this
  unfold SegTree.findPrefixSum
  simp only [Nat.cast_zero] at hr
  rw [hr]
  simp only
  rw [if_pos ⟨hp0, by rw [← hsum]; exact hpe⟩]
  exact this

end Sum

/-- C25: reading outside of the capacity and assigning beyond it are refused, and leave the tree as it was. -/
theorem C25_outside {α : Type u} (op : α → α → α) {h : Nat} {t : SegTree α} {arr f : Nat → α} (ht : TreeOk op h t arr f) :
    (∀ i : Int, i < 0 ∨ 2 ^ h ≤ i → t.getItem i = .error .assertionError) ∧
      ∀ (i : Int) (v : α), 2 ^ h ≤ i → SegTree.setItem op i v t = (t, .error .indexError) := by
  have hpos : (0 : Int) < 2 ^ h := by positivity
  have hc : (t.capacity : Int) = 2 ^ h := by rw [ht.cap]; simp
  have hl : (t.value.length : Int) = 2 * 2 ^ h := by rw [ht.len]; push_cast; ring
  refine ⟨fun i hi => ?_, fun i v hi => ?_⟩
  · unfold SegTree.getItem
    rw [if_neg (by rw [hc]; omega)]
  · unfold SegTree.setItem SegTree.pyIndex
    simp only [hc, hl]
    rw [if_neg (by omega), if_neg (by omega)]

/-- the trees of C25 -/
example : ∃ t0 : SegTree Int, SegTree.new 4 (0 : Int) = .ok t0 ∧ t0.getItem 4 = .error .assertionError ∧
    SegTree.setItem (· + ·) 4 1 t0 = (t0, .error .indexError) := by
  obtain ⟨t0, f, h1, h2⟩ := Seg.new_ok (op := fun a b : Int => a + b) (neutral := 0) (by simp) 2
  exact ⟨t0, h1, (C25_outside _ h2).1 4 (by norm_num), (C25_outside _ h2).2 4 1 (by norm_num)⟩

/-- C25, beyond the statement: assigning with a negative index (the last element, in Python) is accepted and
overwrites an inner node, after which `reduce` is wrong. -/
theorem C25_negative_index_corrupts : ∃ t0 t1 t2 : SegTree Int,
    SegTree.new 4 (0 : Int) = .ok t0 ∧ SegTree.setItem (· + ·) 3 5 t0 = (t1, .ok ()) ∧
    SegTree.setItem (· + ·) (-1) 7 t1 = (t2, .ok ()) ∧
    t2.getItem 3 = .ok 5 ∧ t2.reduce (· + ·) 10 0 none = .ok 7 :=
  ⟨⟨4, [0, 0, 0, 0, 0, 0, 0, 0]⟩, ⟨4, [0, 5, 0, 5, 0, 0, 0, 5]⟩, ⟨4, [0, 7, 0, 7, 0, 0, 0, 5]⟩,
    by decide, by decide, by decide, by decide, by decide⟩

example := C25_reduce (op := fun a b : List Nat => a ++ b) (by simp) (neutral := []) rfl 3 [(5, [1]), (2, [7]), (5, [3])]
  (by decide)
example : (SegTree.reduce (· ++ ·) 10 1 (some 7)
    (writeAll (· ++ ·) [(5, [1]), (2, [7]), (5, [3]), (7, [9])] ⟨8, List.replicate 16 ([] : List Nat)⟩).1)
    = .ok [7, 3] := by decide
example := C26_prefix_sum (α := ℚ) 1 [(0, 1), (1, 3)] (by decide) (t0 := ⟨2, [0, 0, 0, 0]⟩)
  (t := ⟨2, [0, 4, 1, 3]⟩) (by decide +kernel) (by decide +kernel) (eps := 0) (le_refl 0) (fuel := 9) (by decide)
  (p := 1) (by decide +kernel) (by decide +kernel)
example := C26_at_the_end (α := ℚ) 1 [(0, 1)] (by decide) (t0 := ⟨2, [0, 0, 0, 0]⟩)
  (t := ⟨2, [0, 1, 1, 0]⟩) (by decide +kernel) (by decide +kernel) (eps := 0) (fuel := 9) (by decide)
  (p := 1) (by decide +kernel) (by decide +kernel) (by decide +kernel)

end Verif.Props
