import Verif.Props.Agree

/-!
# C73: clear()
-/

namespace Verif.Props

open Verif Spec

variable {V : Type u}

/-- C73, the part that holds: after `clear()` size is 0, the memory is not full, and no column stores
anything. (Missing: the strategies still know the old identities, see `C73_false`.) -/
theorem C73_clear_empties_partial {columns : List Column} {maxlen : Int} {lk : String}
    {t0 t t' : Table V} {ops : List (Op V)} (hc : Created columns maxlen lk t0) (hr : Run t0 ops t)
    (h : t.clear = (t', .ok ())) :
    t'.size = 0 ∧ t'.full = false ∧ t'.lengths = [] ∧ t'.maxlen = t.maxlen ∧ t'.columns = t.columns ∧
      ∀ name d, t'.stored name = some d → d = [] := by
  obtain ⟨q, hh⟩ := run_hist hc hr
  unfold Table.clear at h
  simp only at h
  split at h
  · simp at h
  · rename_i data hd
    injection h with h _
    subst h
    have hcn : t.columns.keys.Nodup := by rw [hh.inv.keys_eq]; exact hh.inv.names
    have hd := buildStores_ok (by simpa using hcn) hd
    simp only [List.nil_append] at hd
    refine ⟨rfl, rfl, rfl, rfl, rfl, ?_⟩
    intro name d hst
    simp only [Table.stored] at hst
    split at hst
    · rename_i d' hg
      injection hst with hst; subst hst
      rw [hd] at hg
      obtain ⟨⟨n, k⟩, _, heq⟩ := List.mem_map.1 (Dict.mem_of_get? hg)
      injection heq with _ h2
      cases k <;> simp [ColKind.empty] at h2
      exact h2
    · rename_i d' hg
      injection hst with hst; subst hst
      rw [hd] at hg
      obtain ⟨⟨n, k⟩, _, heq⟩ := List.mem_map.1 (Dict.mem_of_get? hg)
      injection heq with _ h2
      cases k <;> simp [ColKind.empty] at h2
      exact h2
    · simp at hst

/-- C73: clearing a reachable memory always succeeds. -/
theorem C73_clear_succeeds {columns : List Column} {maxlen : Int} {lk : String}
    {t0 t : Table V} {ops : List (Op V)} (hc : Created columns maxlen lk t0) (hr : Run t0 ops t) :
    t.clear.2 = .ok () := by
  obtain ⟨q, hh⟩ := run_hist hc hr
  obtain ⟨_, s, e, _, _, hnew⟩ := hc
  unfold Table.new Table.clear at hnew
  unfold Table.clear
  simp only at hnew ⊢
  split at hnew
  · simp at hnew
  · rename_i data hd
    rw [← hh.columns] at hd
    have key : ∀ cols : Dict String ColKind, ∀ acc acc' : Dict String (Store V), acc.keys = acc'.keys →
        ∀ x, Table.buildStores cols acc = .ok x → ∃ y, Table.buildStores cols acc' = .ok y :=
      fun cols acc acc' hk x hx => by
        induction cols generalizing acc acc' with
        | nil => exact ⟨_, rfl⟩
        | cons p cols ih =>
          obtain ⟨n, k⟩ := p
          have hset : ∀ s : Store V, (acc.set n s).keys = (acc'.set n s).keys := by
            intro s
            by_cases hm : n ∈ acc.keys
            · rw [Dict.keys_set_of_mem hm, Dict.keys_set_of_mem (hk ▸ hm), hk]
            · rw [Dict.set_of_not_mem hm, Dict.set_of_not_mem (hk ▸ hm)]; simp [hk]
          cases k with
          | plain => exact ih _ _ (hset _) hx
          | tag => exact ih _ _ (hset _) hx
          | virt k tgt =>
            simp only [Table.buildStores] at hx ⊢
            have hc : acc.contains tgt = acc'.contains tgt := by
              rw [Bool.eq_iff_iff, Dict.contains_iff, Dict.contains_iff, hk]
            rw [← hc]
            split at hx
            · exact (by rename_i h; simp only [h, if_true]; exact ih _ _ (hset _) hx)
            · simp at hx
    obtain ⟨y, hy⟩ := key _ _ _ rfl _ hd
    rw [hy]

/-- C73 is false: after `clear()`, adding an identity that was stored before raises `AssertionError` with
the FIFO ejector (all built tables), and sampling (uniform sampler) fails with `KeyError` although the
memory should just be empty. -/
theorem C73_false : ∃ (columns : List Column) (t0 t t' : Table Nat) (ops : List (Op Nat)),
    Created columns 5 "actions" t0 ∧ Run t0 ops t ∧ t.clear = (t', .ok ()) ∧
    (Table.addSequence [] 9 (Ex.ep [1] [2, 3] 0) t').2 = .error .assertionError ∧
    (Table.sample 1 1 id id (fun _ _ => .bit false) t').2 = .error .keyError :=
  ⟨Ex.cols, Ex.t0, Ex.t3, Ex.t3.clear.1, Ex.ops, Ex.created, Ex.run, Prod.ext rfl (by decide +kernel),
    by decide +kernel, by decide +kernel⟩

example := C73_clear_empties_partial Ex.created Ex.run (t' := Ex.t3.clear.1) (Prod.ext rfl (by decide +kernel))
example := C73_clear_succeeds Ex.created Ex.run

end Verif.Props
