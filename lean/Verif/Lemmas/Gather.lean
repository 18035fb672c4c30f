import Verif.Lemmas.Points

set_option linter.unusedSimpArgs false

namespace Verif

open Dict

variable {V : Type u}

theorem pySlice_eq {α : Type u} (l : List α) (s n : Nat) (h : s + n ≤ l.length) :
    pySlice l (s : Int) ((s : Int) + n) = (l.drop s).take n := by
  unfold pySlice clampIdx
  have h1 : ¬ ((s : Int) < 0) := by omega
  have h2 : ¬ ((s : Int) + (n : Int) < 0) := by omega
  have h3 : ((s : Int) + (n : Int)).toNat = s + n := by omega
  simp only [h1, h2, if_false, h3, Int.toNat_natCast]
  rw [Nat.min_eq_left (by omega), Nat.min_eq_left (by omega), Nat.add_sub_cancel_left]

theorem sliceAssign_exact {α : Type u} {out src : List α} {idx len : Nat} (hs : src.length = len)
    (ho : idx + len ≤ out.length) :
    sliceAssign out idx (idx + len) src = some (out.take idx ++ src ++ out.drop (idx + len)) := by
  unfold sliceAssign
  have h1 : min idx out.length = idx := by omega
  have h2 : min (idx + len) out.length = idx + len := by omega
  have h3 : max idx (idx + len) = idx + len := by omega
  simp only [h1, h2, h3]
  rw [if_pos (by omega)]

namespace Table

/-- the rows read at a point, if any -/
def readD (data : Dict String (Store V)) (s : Store V) (p : SamplePoint) : List (Cell V) :=
  match read data s p with
  | .ok l => l
  | .error _ => []

theorem gatherStore_ok {data : Dict String (Store V)} {s : Store V} {len : Nat}
    {pts : List SamplePoint} {idx : Nat} {out : List (Cell V)}
    (hr : ∀ p ∈ pts, ∃ src, read data s p = .ok src ∧ src.length = len)
    (ho : out.length = idx + pts.length * len) :
    gatherStore data s len pts idx out = (out.take idx ++ pts.flatMap (readD data s), .ok ()) := by
  induction pts generalizing idx out with
  | nil =>
    simp only [List.length_nil, Nat.zero_mul, Nat.add_zero] at ho
    simp [gatherStore, ← ho]
  | cons p pts ih =>
    obtain ⟨src, h1, h2⟩ := hr p (by simp)
    have hle : idx + len ≤ out.length := by
      rw [ho, List.length_cons, Nat.succ_mul]; omega
    unfold gatherStore
    simp only [h1, sliceAssign_exact h2 hle]
    have htl : (out.take idx ++ src).length = idx + len := by
      rw [List.length_append, List.length_take, h2]; omega
    rw [ih (fun q hq => hr q (by simp [hq]))]
    · have hd : readD data s p = src := by simp [readD, h1]
      rw [List.flatMap_cons, hd]
      congr 1
      rw [← htl, List.take_left, List.append_assoc]
    · simp only [List.length_append, List.length_take, List.length_drop, h2, ho, List.length_cons]
      rw [Nat.succ_mul]; omega

theorem workspace_length (old : Option (List (Cell V))) (total : Nat) (junk : Nat → Cell V) :
    total ≤ (workspace old total junk).length := by
  unfold workspace
  split
  · split
    · simp
    · omega
  · simp

theorem gather_ok {count n : Nat} {pts : List SamplePoint} {junk : String → Nat → Cell V}
    {data : Dict String (Store V)} (hc : pts.length = count) (stores : Dict String (Store V))
    (hr : ∀ name s, (name, s) ∈ stores → ∀ p ∈ pts,
      ∃ src, read data s p = .ok src ∧ src.length = localLen s n) (t : Table V) (hd : t.data = data) :
    ∃ t', gather count n pts junk stores t
      = (t', .ok (stores.map fun x => (x.1, pts.flatMap (readD data x.2)))) := by
  induction stores generalizing t with
  | nil => exact ⟨t, rfl⟩
  | cons x stores ih =>
    obtain ⟨name, s⟩ := x
    have hg := gatherStore_ok (idx := 0)
      (out := (workspace (t.temp.get? name) (count * localLen s n) (junk name)).take
          (count * localLen s n)) (hr name s (by simp)) (by
        rw [List.length_take, Nat.min_eq_left (workspace_length _ _ _), hc, Nat.zero_add])
    simp only [List.take_zero, List.nil_append] at hg
    subst hd
    obtain ⟨t', ht⟩ := ih (fun m s' hs => hr m s' (by simp [hs]))
      { t with temp := t.temp.set name ((pts.flatMap (readD t.data s))
        ++ (workspace (t.temp.get? name) (count * localLen s n)
            (junk name)).drop (count * localLen s n)) } rfl
    refine ⟨t', ?_⟩
    unfold gather
    simp only [hg, ht, Res.andThen_ok, List.map_cons]

end Table
end Verif
