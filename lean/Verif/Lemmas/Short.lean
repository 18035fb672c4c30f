import Verif.Lemmas.Window

/-!
# What a batch consists of when sequences may be too short
-/

set_option linter.unusedSimpArgs false

namespace Verif

open Dict Spec

variable {V : Type u}

theorem pySlice_infix {α : Type u} (l : List α) (a b : Int) : pySlice l a b <:+: l := by
  unfold pySlice
  exact (List.take_prefix _ _).isInfix.trans (List.drop_suffix _ _).isInfix

/-- What an assignment to a slice inside the array does if it succeeds. -/
theorem sliceAssign_some {α : Type u} {out out' src : List α} {idx len : Nat}
    (ho : idx + len ≤ out.length) (h : sliceAssign out idx (idx + len) src = some out') :
    ∃ b, out' = out.take idx ++ b ++ out.drop (idx + len) ∧ b.length = len ∧
      (b = src ∨ ∃ x, src = [x] ∧ b = List.replicate len x) := by
  unfold sliceAssign at h
  have h1 : min idx out.length = idx := by omega
  have h2 : min (idx + len) out.length = idx + len := by omega
  have h3 : max idx (idx + len) = idx + len := by omega
  simp only [h1, h2, h3] at h
  split at h
  · rename_i hl
    injection h with h
    exact ⟨src, h.symm, by omega, Or.inl rfl⟩
  · split at h
    · rename_i x _
      injection h with h
      refine ⟨List.replicate len x, ?_, by simp, Or.inr ⟨x, rfl, rfl⟩⟩
      rw [← h, Nat.add_sub_cancel_left]
    · cases h

namespace Table

theorem gatherStore_shape {data : Dict String (Store V)} {s : Store V} {len : Nat}
    {pts : List SamplePoint} {idx : Nat} {out out' : List (Cell V)}
    (ho : out.length = idx + pts.length * len)
    (h : gatherStore data s len pts idx out = (out', .ok ())) :
    ∃ blocks : List (List (Cell V)), out' = out.take idx ++ blocks.flatten ∧
      blocks.length = pts.length ∧
      ∀ (k : Nat) (p : SamplePoint), pts[k]? = some p → ∃ b src, blocks[k]? = some b ∧ b.length = len ∧
        read data s p = .ok src ∧ (b = src ∨ ∃ x, src = [x] ∧ b = List.replicate len x) := by
  induction pts generalizing idx out with
  | nil =>
    simp only [List.length_nil, Nat.zero_mul, Nat.add_zero] at ho
    simp only [gatherStore, Prod.mk.injEq, and_true] at h
    exact ⟨[], by simp [← ho, h], rfl, by simp⟩
  | cons p pts ih =>
    have hle : idx + len ≤ out.length := by
      rw [ho, List.length_cons, Nat.succ_mul]; omega
    unfold gatherStore at h
    split at h
    · simp at h
    · simp at h
    · simp at h
    · rename_i src hr
      split at h
      · simp at h
      · rename_i out1 hs
        obtain ⟨b, h1, h2, h3⟩ := sliceAssign_some hle hs
        have hl1 : out1.length = out.length := by
          rw [h1]; simp only [List.length_append, List.length_take, List.length_drop, h2]; omega
        obtain ⟨blocks, h4, h5, h6⟩ := ih (idx := idx + len) (out := out1)
          (by rw [hl1, ho, List.length_cons, Nat.succ_mul]; omega) h
        refine ⟨b :: blocks, ?_, by simp [h5], ?_⟩
        · rw [h4, h1]
          have htl : (out.take idx ++ b).length = idx + len := by
            rw [List.length_append, List.length_take, h2]; omega
          rw [← htl, List.take_left, List.flatten_cons, List.append_assoc]
        · intro k p' hk
          cases k with
          | zero =>
            simp only [List.getElem?_cons_zero, Option.some.injEq] at hk
            subst hk
            exact ⟨b, src, rfl, h2, hr, h3⟩
          | succ k =>
            simp only [List.getElem?_cons_succ] at hk ⊢
            exact h6 k p' hk

theorem gather_shape {count n : Nat} {pts : List SamplePoint} {junk : String → Nat → Cell V}
    {stores : Dict String (Store V)} {t t' : Table V} {out : Dict String (List (Cell V))}
    (h : gather count n pts junk stores t = (t', .ok out)) :
    out.keys = stores.keys ∧ ∀ name s, (name, s) ∈ stores → ∃ col buf, (name, col) ∈ out ∧
      buf.length = count * localLen s n ∧
      gatherStore t.data s (localLen s n) pts 0 buf = (col, .ok ()) := by
  induction stores generalizing t out with
  | nil =>
    simp only [gather, Prod.mk.injEq, Except.ok.injEq] at h
    obtain ⟨_, rfl⟩ := h
    exact ⟨rfl, by simp⟩
  | cons x stores ih =>
    obtain ⟨name, s⟩ := x
    unfold gather at h
    simp only at h
    split at h
    · simp at h
    · rename_i hr
      obtain ⟨t1, out1, h1, h2⟩ := Res.andThen_eq_ok.1 h
      simp only [Prod.mk.injEq, Except.ok.injEq] at h2
      obtain ⟨rfl, rfl⟩ := h2
      obtain ⟨h3, h4⟩ := ih h1
      refine ⟨by simp only [keys, List.map_cons] at h3 ⊢; rw [h3], ?_⟩
      intro name' s' hm
      rcases List.mem_cons.1 hm with hm | hm
      · injection hm with e1 e2
        subst e1 e2
        refine ⟨_, _, List.mem_cons_self .., ?_, Prod.ext rfl hr⟩
        rw [List.length_take, Nat.min_eq_left (workspace_length _ _ _)]
      · obtain ⟨col, buf, h5, h6, h7⟩ := h4 name' s' hm
        exact ⟨col, buf, List.mem_cons_of_mem _ h5, h6, h7⟩

end Table

/-- A sampled block of a physical column, whether or not the sequences are long enough. -/
theorem sample_shape {t t' : Table V} {q : List (Entry V)} (h : Inv t q) {count n : Nat}
    {c r : Nat → Nat} {junk : String → Nat → Cell V} {out : Dict String (List (Cell V))}
    (hs : Table.sample count n c r junk t = (t', .ok out)) :
    ∃ pts : List SamplePoint, pts.length = count ∧ (∀ p ∈ pts, PointOk (lensOf q) n p) ∧
      ∀ name, (name, ColKind.plain) ∈ t.columns → ∃ blocks : List (List (Cell V)),
        out.get? name = some blocks.flatten ∧ blocks.length = count ∧
        ∀ (k : Nat) (p : SamplePoint), pts[k]? = some p → ∃ e ∈ q, e.id = p.1 ∧ ∃ b : List (Cell V), blocks[k]? = some b ∧ b.length = n ∧
          (b = (pySlice (e.rows name) p.2.1 p.2.2).map .row ∨
           ∃ x : V, pySlice (e.rows name) p.2.1 p.2.2 = [x] ∧ b = List.replicate n (.row x)) := by
  unfold Table.sample at hs
  rcases Strategy.sample_cases (count := count) (n := n) (c := c) (r := r)
    (by simpa using h.nodup) h.sampler with ⟨s', e, h1, h2⟩ | ⟨s', pts, h1, h2, h3⟩
  · rw [h1] at hs
    simp [Res.lift, Res.andThen_error] at hs
  · rw [h1] at hs
    simp only [Res.lift, Res.andThen_ok] at hs
    obtain ⟨hk, hg⟩ := Table.gather_shape hs
    refine ⟨pts, h2, h3, fun name hm => ?_⟩
    rw [← h.shape] at hm
    obtain ⟨⟨n0, st⟩, hst, heq⟩ := List.mem_map.1 hm
    injection heq with heq1 heq2
    simp only at heq1 heq2
    subst heq1
    cases st with
    | tag d => simp [Store.kind] at heq2
    | virt k tgt => simp [Store.kind] at heq2
    | plain d =>
      obtain ⟨col, buf, h5, h6, h7⟩ := hg n0 _ hst
      obtain ⟨blocks, h8, h9, h10⟩ := Table.gatherStore_shape (by rw [h6, h2]; simp) h7
      refine ⟨blocks, ?_, by rw [h9, h2], ?_⟩
      · rw [h8, List.take_zero, List.nil_append] at h5
        exact get?_of_mem (by rw [hk]; exact h.names) h5
      · intro k p hp
        obtain ⟨len, hl, _, _⟩ := h3 p (List.mem_of_getElem? hp)
        obtain ⟨e, he, heq⟩ := List.mem_map.1 (mem_of_get? hl)
        injection heq with e1 e2
        obtain ⟨b, src, h11, h12, h13, h14⟩ := h10 k p hp
        refine ⟨e, he, e1, b, h11, h12, ?_⟩
        rw [show d = _ from h.stores n0 _ hst] at h13
        obtain ⟨a, b', c'⟩ := p
        simp only at e1
        subst e1
        simp only [Table.read, get?_map_entries h.nodup he (fun e => e.rows n0), Except.ok.injEq] at h13
        subst h13
        rcases h14 with h14 | ⟨x, h14, h15⟩
        · exact Or.inl h14
        · right
          have hl := congrArg List.length h14
          simp only [List.length_map, List.length_singleton] at hl
          obtain ⟨y, hy⟩ := List.length_eq_one_iff.1 hl
          rw [hy] at h14
          simp only [List.map_cons, List.map_nil, List.cons.injEq, and_true] at h14
          refine ⟨y, hy, ?_⟩
          rw [h15, ← h14]; rfl

end Verif
