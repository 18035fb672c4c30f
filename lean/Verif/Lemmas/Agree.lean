import Verif.Lemmas.History
import Verif.Lemmas.Points
import Verif.Lemmas.Eject
import Verif.Lemmas.Gather

set_option linter.unusedSimpArgs false

namespace Verif

open Dict Spec

variable {V : Type u}

/-- Virtual columns have plain targets. -/
def VirtOk (t : Table V) : Prop :=
  ∀ name k tgt, (name, Store.virt k tgt) ∈ t.data → ∃ d, t.data.get? tgt = some (.plain d)

theorem Inv.plain {t : Table V} {q : List (Entry V)} (h : Inv t q) {name : String}
    {d : Dict Int (List V)} (hg : t.data.get? name = some (.plain d)) :
    d = q.map fun e => (e.id, e.rows name) := h.stores name _ (mem_of_get? hg)

theorem get?_map_entries {q : List (Entry V)} (hn : (q.map Entry.id).Nodup) {e : Entry V}
    (he : e ∈ q) (f : Entry V → List V) :
    Dict.get? (q.map fun e => (e.id, f e)) e.id = some (f e) :=
  get?_of_mem (by simpa [keys, Function.comp_def] using hn) (List.mem_map.2 ⟨e, he, rfl⟩)

theorem mem_update {κ : Type} {α : Type v} [DecidableEq κ] (e d : Dict κ α) (p : κ × α)
    (h : p ∈ d.update e) : p ∈ d ∨ p ∈ e := by
  unfold Dict.update at h
  induction e generalizing d with
  | nil => exact Or.inl h
  | cons x e ih =>
    rcases ih _ h with h | h
    · have : ∀ (d : Dict κ α), p ∈ d.set x.1 x.2 → p ∈ d ∨ p = x := by
        intro d
        induction d with
        | nil => intro h; simp only [Dict.set, List.mem_singleton] at h; exact Or.inr h
        | cons y d ih =>
          intro h
          simp only [Dict.set] at h
          split at h
          · rename_i hk
            rcases List.mem_cons.1 h with h | h
            · right; rw [h, hk]
            · exact Or.inl (List.mem_cons_of_mem _ h)
          · rcases List.mem_cons.1 h with h | h
            · exact Or.inl (by simp [h])
            · rcases ih h with h | h
              · exact Or.inl (List.mem_cons_of_mem _ h)
              · exact Or.inr h
      rcases this d h with h | h
      · exact Or.inl h
      · exact Or.inr (by simp [h])
    · exact Or.inr (List.mem_cons_of_mem _ h)

theorem Hist.virtOk {columns : List Column} {maxlen : Int} {lk : String} {ops : List (Op V)}
    {t : Table V} {q : List (Entry V)} (h : Hist columns maxlen lk ops t q)
    (hw : WellTargeted columns) : VirtOk t := by
  intro name k tgt hm
  have hcol : (name, ColKind.virt k tgt) ∈ t.columns := by
    rw [← h.inv.shape]; exact List.mem_map.2 ⟨_, hm, rfl⟩
  rw [h.columns] at hcol
  rcases mem_update _ _ _ hcol with hcol | hcol
  · simp at hcol
  · obtain ⟨c, hc, heq⟩ := List.mem_map.1 hcol
    injection heq with _ heq
    have := hw c hc k tgt heq
    rw [← h.columns] at this
    have hin := mem_of_get? this
    rw [← h.inv.shape] at hin
    obtain ⟨⟨n, s⟩, hs, heq⟩ := List.mem_map.1 hin
    injection heq with h1 h2
    subst h1
    cases s with
    | plain d => exact ⟨d, get?_of_mem h.inv.names hs⟩
    | tag d => simp [Store.kind] at h2
    | virt k tgt => simp [Store.kind] at h2

theorem target_ok {t : Table V} {q : List (Entry V)} (h : Inv t q) (hv : VirtOk t) {name tgt : String}
    {k : VKind} (hm : (name, Store.virt k tgt) ∈ t.data) {e : Entry V} (he : e ∈ q) :
    Table.target t.data tgt e.id = .ok (e.rows tgt) := by
  obtain ⟨d, hd⟩ := hv name k tgt hm
  unfold Table.target
  rw [hd]
  simp only
  rw [h.plain hd, get?_map_entries h.nodup he (fun e => e.rows tgt)]

theorem hasId_ok {t : Table V} {q : List (Entry V)} (h : Inv t q) (hv : VirtOk t)
    {e : Entry V} (he : e ∈ q) : t.data.all (fun p => Table.hasId t.data p.2 e.id) = true := by
  rw [List.all_eq_true]
  rintro ⟨name, s⟩ hm
  cases s with
  | plain d =>
    simp only [Table.hasId]
    rw [contains_iff, show d = _ from h.stores name _ hm]
    simp only [keys, List.map_map, List.mem_map]
    exact ⟨e, he, rfl⟩
  | tag d =>
    simp only [Table.hasId]
    rw [contains_iff, show d = _ from h.stores name _ hm]
    simp only [keys, List.map_map, List.mem_map]
    exact ⟨e, he, rfl⟩
  | virt k tgt =>
    simp only [Table.hasId, target_ok h hv hm he]

/-- Errors of a read of a stored identity are index errors. -/
theorem read_err {t : Table V} {q : List (Entry V)} (h : Inv t q) (hv : VirtOk t) {name : String}
    {s : Store V} (hm : (name, s) ∈ t.data) {e : Entry V} (he : e ∈ q) {a b : Int} {x : Err}
    (hr : Table.read t.data s (e.id, a, b) = .error x) : x = .indexError := by
  cases s with
  | plain d =>
    rw [show d = _ from h.stores name _ hm] at hr
    simp only [Table.read, get?_map_entries h.nodup he (fun e => e.rows name)] at hr
    simp at hr
  | tag d =>
    rw [show d = _ from h.stores name _ hm] at hr
    simp only [Table.read, get?_map_entries h.nodup he (fun e => e.rows name)] at hr
    split at hr
    · simp_all
    · injection hr with hr; exact hr.symm
    · simp at hr
  | virt k tgt =>
    have ht := target_ok h hv hm he
    cases k <;> simp only [Table.read, ht, bind, Except.bind] at hr
    · simp at hr
    · simp at hr
    · split at hr
      · injection hr with hr; exact hr.symm
      · simp at hr
    · simp at hr
    · simp at hr

theorem gatherStore_err {t : Table V} {q : List (Entry V)} (h : Inv t q) (hv : VirtOk t)
    {name : String} {s : Store V} (hm : (name, s) ∈ t.data) {len : Nat} {pts : List SamplePoint}
    (hp : ∀ p ∈ pts, p.1 ∈ q.map Entry.id) {idx : Nat} {out out' : List (Cell V)} {x : Err}
    (hr : Table.gatherStore t.data s len pts idx out = (out', .error x)) :
    x = .indexError ∨ x = .valueError := by
  induction pts generalizing idx out with
  | nil => simp [Table.gatherStore] at hr
  | cons p pts ih =>
    obtain ⟨id, a, b⟩ := p
    obtain ⟨e, he, heq⟩ := List.mem_map.1 (hp (id, a, b) (by simp))
    simp only at heq
    subst heq
    have hdiag : Table.diagnostic t.data e.id = .valueError := by
      unfold Table.diagnostic; rw [if_pos (hasId_ok h hv he)]
    unfold Table.gatherStore at hr
    cases hrd : Table.read t.data s (e.id, a, b) with
    | error y =>
      have := read_err h hv hm he hrd
      subst this
      rw [hrd] at hr
      simp only [Prod.mk.injEq, Except.error.injEq] at hr
      exact Or.inl hr.2.symm
    | ok src =>
      rw [hrd] at hr
      simp only at hr
      split at hr
      · rw [hdiag] at hr
        simp only [Prod.mk.injEq, Except.error.injEq] at hr
        exact Or.inr hr.2.symm
      · exact ih (fun p hp' => hp p (by simp [hp'])) hr

theorem gather_err {t : Table V} {q : List (Entry V)} (h : Inv t q) (hv : VirtOk t) {count n : Nat}
    {pts : List SamplePoint} (hp : ∀ p ∈ pts, p.1 ∈ q.map Entry.id) {junk : String → Nat → Cell V}
    (stores : Dict String (Store V)) (hsub : ∀ p ∈ stores, p ∈ t.data) (tt tt' : Table V)
    (hd : tt.data = t.data) {x : Err}
    (hr : Table.gather count n pts junk stores tt = (tt', .error x)) :
    x = .indexError ∨ x = .valueError := by
  induction stores generalizing tt with
  | nil => simp [Table.gather] at hr
  | cons y stores ih =>
    obtain ⟨name, s⟩ := y
    unfold Table.gather at hr
    simp only at hr
    generalize hg : Table.gatherStore tt.data s (Table.localLen s n) pts 0 _ = z at hr
    obtain ⟨o, w⟩ := z
    cases w with
    | error y =>
      simp only [Prod.mk.injEq, Except.error.injEq] at hr
      rw [hd] at hg
      rw [← hr.2]
      exact gatherStore_err h hv (hsub (name, s) (by simp)) hp hg
    | ok u =>
      simp only at hr
      revert hr
      generalize hgg : Table.gather count n pts junk stores _ = z
      obtain ⟨t2, w⟩ := z
      cases w with
      | error y =>
        intro hr
        simp only [Res.andThen_error, Prod.mk.injEq, Except.error.injEq] at hr
        obtain ⟨rfl, rfl⟩ := hr
        refine ih (fun p hp' => hsub p (by simp [hp'])) _ ?_ hgg
        exact hd
      | ok o2 => intro hr; simp at hr

/-- The only ways sampling can fail. -/
theorem sample_err {t t' : Table V} {q : List (Entry V)} (h : Inv t q) (hv : VirtOk t)
    {count n : Nat} {c r : Nat → Nat} {junk : String → Nat → Cell V} {x : Err}
    (hs : Table.sample count n c r junk t = (t', .error x)) :
    x = .indexError ∨ x = .valueError ∨ x = .zeroDivision ∨ x = .overflowError := by
  unfold Table.sample at hs
  rcases Strategy.sample_cases (count := count) (n := n) (c := c) (r := r)
    (by simpa using h.nodup) h.sampler with ⟨s', e, h1, h2⟩ | ⟨s', pts, h1, h2, h3⟩
  · rw [h1] at hs
    simp only [Res.lift, Res.andThen_error, Prod.mk.injEq, Except.error.injEq] at hs
    rw [← hs.2]
    rcases h2 with h2 | h2 | h2 <;> simp [h2]
  · rw [h1] at hs
    simp only [Res.lift, Res.andThen_ok] at hs
    have hp : ∀ p ∈ pts, p.1 ∈ q.map Entry.id := by
      intro p hp
      obtain ⟨len, hl, _⟩ := h3 p hp
      simpa using mem_keys_of_get? hl
    rcases gather_err h hv hp t.data (fun _ h => h) { t with sampler := s' } _ rfl hs with h4 | h4 <;> simp [h4]

/-- The only ways an add of a new identity can fail. -/
theorem add_err {t t' : Table V} {q : List (Entry V)} {draws : List Nat} {id : Int} {seq : Seqn V}
    {rows : List V} (h : Inv t q) (hs : SeqOk t seq) (hid : Table.wrapId id ∉ q.map Entry.id)
    (hl : seq.get? t.lengthKey = some rows) {x : Err}
    (ha : Table.addSequence draws id seq t = (t', .error x)) :
    (x = .indexError ∧ t.maxlen < (rows.length : Int)) ∨ x = .diverges ∨
      (x = .valueError ∧ total q = 0 ∧ t.maxlen < (rows.length : Int)) ∨ x = .overflowError := by
  by_cases hgt : t.total + rows.length > t.maxlen
  · cases he : t.ejector.eject (t.total + rows.length - t.maxlen) draws with
    | mk s y =>
      have hT : trackedTotal (lensOf q) = total q := by
        simp [trackedTotal, total, lensOf, Function.comp_def]
      have htot := h.total
      cases y with
      | ok ids =>
        obtain ⟨t2, h2⟩ := add_succeeds (draws := draws) h hs hid hl (fun _ => ⟨s, ids, he⟩)
        rw [h2] at ha; simp at ha
      | error e =>
        have hx : x = e := by
          unfold Table.addSequence at ha
          rw [hl] at ha
          simp only [if_pos hgt, ejectCount_eq, he, Res.lift, Res.andThen_error, Prod.mk.injEq,
            Except.error.injEq] at ha
          exact ha.2.symm
        subst hx
        rcases Strategy.eject_err (by simpa using h.nodup) h.ejector he with h1 | h1 | h1 | h1
        · exact Or.inl ⟨h1.1, by omega⟩
        · exact Or.inr (Or.inl h1)
        · exact Or.inr (Or.inr (Or.inl ⟨h1.1, by omega, by omega⟩))
        · exact Or.inr (Or.inr (Or.inr h1))
  · obtain ⟨t2, h2⟩ := add_succeeds (draws := draws) h hs hid hl (fun h3 => absurd h3 hgt)
    rw [h2] at ha; simp at ha

end Verif
