import Verif.Base.Dict

set_option linter.unusedSectionVars false
set_option linter.unusedSimpArgs false

namespace Verif
namespace Dict

variable {κ : Type u} {α : Type v} [DecidableEq κ]

@[simp] theorem keys_nil : keys ([] : Dict κ α) = [] := rfl
@[simp] theorem keys_cons (p : κ × α) (d : Dict κ α) : keys (p :: d) = p.1 :: keys d := rfl
@[simp] theorem keys_append (d e : Dict κ α) : keys (d ++ e) = keys d ++ keys e := by
  simp [keys]
@[simp] theorem values_nil : values ([] : Dict κ α) = [] := rfl
@[simp] theorem values_cons (p : κ × α) (d : Dict κ α) : values (p :: d) = p.2 :: values d := rfl
@[simp] theorem values_append (d e : Dict κ α) : values (d ++ e) = values d ++ values e := by
  simp [values]

theorem get?_none_iff {d : Dict κ α} {k : κ} : d.get? k = none ↔ k ∉ d.keys := by
  induction d with
  | nil => simp [get?]
  | cons p d ih =>
    obtain ⟨k', v⟩ := p
    by_cases h : k' = k
    · simp [get?, h]
    · simp only [get?, h, if_false, ih, keys_cons, List.mem_cons, not_or]
      exact ⟨fun h' => ⟨fun e => h e.symm, h'⟩, fun h' => h'.2⟩

theorem contains_iff {d : Dict κ α} {k : κ} : d.contains k = true ↔ k ∈ d.keys := by
  unfold contains
  rw [Option.isSome_iff_ne_none, Ne, get?_none_iff]
  exact Decidable.not_not

theorem contains_false_iff {d : Dict κ α} {k : κ} : d.contains k = false ↔ k ∉ d.keys := by
  rw [← Bool.not_eq_true, contains_iff]

theorem get?_isSome_of_mem {d : Dict κ α} {k : κ} (h : k ∈ d.keys) : ∃ v, d.get? k = some v := by
  have : d.get? k ≠ none := fun h' => get?_none_iff.1 h' h
  exact Option.ne_none_iff_exists'.1 this

theorem mem_of_get? {d : Dict κ α} {k : κ} {v : α} (h : d.get? k = some v) : (k, v) ∈ d := by
  induction d with
  | nil => simp [get?] at h
  | cons p d ih =>
    obtain ⟨k', v'⟩ := p
    by_cases hk : k' = k
    · simp [get?, hk] at h; simp [hk, h]
    · simp only [get?, hk, if_false] at h
      exact List.mem_cons_of_mem _ (ih h)

theorem mem_keys_of_get? {d : Dict κ α} {k : κ} {v : α} (h : d.get? k = some v) : k ∈ d.keys :=
  List.mem_map.2 ⟨_, mem_of_get? h, rfl⟩

theorem mem_keys_of_mem {d : Dict κ α} {k : κ} {v : α} (h : (k, v) ∈ d) : k ∈ d.keys :=
  List.mem_map.2 ⟨_, h, rfl⟩

theorem get?_of_mem {d : Dict κ α} {k : κ} {v : α} (hn : d.keys.Nodup) (h : (k, v) ∈ d) :
    d.get? k = some v := by
  induction d with
  | nil => simp at h
  | cons p d ih =>
    obtain ⟨k', v'⟩ := p
    simp only [keys_cons, List.nodup_cons] at hn
    rcases List.mem_cons.1 h with h | h
    · injection h with h1 h2; subst h1 h2; simp [get?]
    · have : k' ≠ k := fun e => hn.1 (e ▸ mem_keys_of_mem h)
      simp [get?, this, ih hn.2 h]

theorem set_of_not_mem {d : Dict κ α} {k : κ} {v : α} (h : k ∉ d.keys) :
    d.set k v = d ++ [(k, v)] := by
  induction d with
  | nil => simp [set]
  | cons p d ih =>
    obtain ⟨k', v'⟩ := p
    simp only [keys_cons, List.mem_cons, not_or] at h
    simp [set, Ne.symm h.1, ih h.2]

theorem keys_set_of_mem {d : Dict κ α} {k : κ} {v : α} (h : k ∈ d.keys) :
    (d.set k v).keys = d.keys := by
  induction d with
  | nil => simp at h
  | cons p d ih =>
    obtain ⟨k', v'⟩ := p
    by_cases hk : k' = k
    · simp [set, hk]
    · simp only [keys_cons, List.mem_cons] at h
      have : k ∈ keys d := h.resolve_left (fun e => hk e.symm)
      simp [set, hk, ih this]

theorem mem_keys_set {d : Dict κ α} {k j : κ} {v : α} :
    j ∈ (d.set k v).keys ↔ j = k ∨ j ∈ d.keys := by
  by_cases h : k ∈ d.keys
  · rw [keys_set_of_mem h]
    exact ⟨Or.inr, fun h' => h'.elim (fun e => e ▸ h) id⟩
  · rw [set_of_not_mem h]; simp [or_comm]

theorem get?_set {d : Dict κ α} {k j : κ} {v : α} :
    (d.set k v).get? j = if k = j then some v else d.get? j := by
  induction d with
  | nil => simp [set, get?]
  | cons p d ih =>
    obtain ⟨k', v'⟩ := p
    by_cases hk : k' = k
    · subst hk
      by_cases hj : k' = j <;> simp [set, get?, hj]
    · by_cases hj : k' = j
      · subst hj; simp [set, get?, hk, Ne.symm hk]
      · simp [set, get?, hk, hj, ih]

@[simp] theorem get?_set_self {d : Dict κ α} {k : κ} {v : α} : (d.set k v).get? k = some v := by
  simp [get?_set]

theorem get?_set_ne {d : Dict κ α} {k j : κ} {v : α} (h : k ≠ j) :
    (d.set k v).get? j = d.get? j := by
  simp [get?_set, h]

theorem nodup_set {d : Dict κ α} {k : κ} {v : α} (h : d.keys.Nodup) : (d.set k v).keys.Nodup := by
  by_cases hk : k ∈ d.keys
  · rw [keys_set_of_mem hk]; exact h
  · rw [set_of_not_mem hk, keys_append, List.nodup_append]
    refine ⟨h, by simp, ?_⟩
    intro a ha b hb
    simp at hb; subst hb
    exact fun e => hk (e ▸ ha)

theorem erase_of_not_mem {d : Dict κ α} {k : κ} (h : k ∉ d.keys) : d.erase k = d := by
  induction d with
  | nil => rfl
  | cons p d ih =>
    obtain ⟨k', v'⟩ := p
    simp only [keys_cons, List.mem_cons, not_or] at h
    simp [erase, Ne.symm h.1, ih h.2]

/-- With distinct keys, erasing a key is filtering. -/
theorem erase_eq_filter {d : Dict κ α} {k : κ} (h : d.keys.Nodup) :
    d.erase k = d.filter (fun p => p.1 ≠ k) := by
  induction d with
  | nil => rfl
  | cons p d ih =>
    obtain ⟨k', v'⟩ := p
    simp only [keys_cons, List.nodup_cons] at h
    by_cases hk : k' = k
    · subst hk
      have : d.filter (fun p => p.1 ≠ k') = d := by
        apply List.filter_eq_self.2
        intro p hp
        simp only [ne_eq, decide_not, Bool.not_eq_eq_eq_not, Bool.not_true, decide_eq_false_iff_not]
        exact fun e => h.1 (e ▸ mem_keys_of_mem (k := p.1) (v := p.2) hp)
      simp only [erase, if_true]
      rw [List.filter_cons, if_neg (by simp)]
      exact this.symm
    · simp [erase, hk, ih h.2]

theorem keys_erase {d : Dict κ α} {k : κ} : (d.erase k).keys = d.keys.erase k := by
  induction d with
  | nil => rfl
  | cons p d ih =>
    obtain ⟨k', v'⟩ := p
    by_cases hk : k' = k
    · simp [erase, hk]
    · simp [erase, hk, ih, List.erase_cons]

theorem nodup_erase {d : Dict κ α} {k : κ} (h : d.keys.Nodup) : (d.erase k).keys.Nodup := by
  rw [keys_erase]; exact h.erase k

theorem get?_erase {d : Dict κ α} {k j : κ} (hn : d.keys.Nodup) :
    (d.erase k).get? j = if k = j then none else d.get? j := by
  induction d with
  | nil => simp [erase, get?]
  | cons p d ih =>
    obtain ⟨k', v'⟩ := p
    simp only [keys_cons, List.nodup_cons] at hn
    by_cases hk : k' = k
    · subst hk
      by_cases hj : k' = j
      · subst hj; simp [erase, get?_none_iff.2 hn.1]
      · simp [erase, get?, hj]
    · by_cases hj : k' = j
      · subst hj; simp [erase, hk, get?, Ne.symm hk]
      · simp [erase, hk, get?, hj, ih hn.2]

theorem get?_erase_ne {d : Dict κ α} {k j : κ} (h : k ≠ j) : (d.erase k).get? j = d.get? j := by
  induction d with
  | nil => rfl
  | cons p d ih =>
    obtain ⟨k', v'⟩ := p
    by_cases hk : k' = k
    · subst hk
      simp [erase, get?, h]
    · simp [erase, hk, get?, ih]

theorem mem_keys_erase {d : Dict κ α} {k j : κ} (hn : d.keys.Nodup) :
    j ∈ (d.erase k).keys ↔ j ≠ k ∧ j ∈ d.keys := by
  rw [keys_erase, hn.mem_erase_iff]

theorem del?_eq_some {d d' : Dict κ α} {k : κ} :
    d.del? k = some d' ↔ k ∈ d.keys ∧ d' = d.erase k := by
  unfold del?
  by_cases h : d.contains k
  · simp [h, contains_iff.1 h, eq_comm]
  · have := contains_false_iff.1 (by simpa using h)
    simp [this, h]

theorem del?_of_mem {d : Dict κ α} {k : κ} (h : k ∈ d.keys) : d.del? k = some (d.erase k) :=
  del?_eq_some.2 ⟨h, rfl⟩

end Dict
end Verif
