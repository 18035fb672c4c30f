import Verif.Props.Replay
import Verif.Lemmas.Agree
import Verif.Lemmas.FifoSample

/-!
# C04 (all parts of the memory agree) and what is left of C08
-/

namespace Verif.Props

open Verif Spec

variable {V : Type u}

/-! ## C04 -/

/-- The identities a strategy knows, with their lengths. -/
def known : Strategy → Dict Int Nat
  | .fifo s => s.lens
  | .uniform s => s.idents
  | .coverage s => s.idents

/-- C04: sampler, ejector, length index and every physical column know the same identities, with the
same lengths. -/
theorem C04_indices_agree {columns : List Column} {maxlen : Int} {lk : String}
    {t0 t : Table V} {ops : List (Op V)} (hc : Created columns maxlen lk t0) (hr : Run t0 ops t) :
    known t.sampler = t.lengths ∧ known t.ejector = t.lengths ∧
    (∀ name d, t.stored name = some d → d.keys = t.lengths.keys) ∧
    (∀ d, t.stored lk = some d → t.lengths = d.map fun p => (p.1, p.2.length)) := by
  obtain ⟨q, h⟩ := run_hist hc hr
  have hk : ∀ {s : Strategy} {l : Dict Int Nat}, s.Tracks l → known s = l := by
    intro s l ht
    cases s with
    | fifo s => exact ht.2.1
    | uniform s => exact ht.1
    | coverage s => exact ht.1
  refine ⟨by rw [h.inv.lengths]; exact hk h.inv.sampler, by rw [h.inv.lengths]; exact hk h.inv.ejector,
    ?_, ?_⟩
  · intro name d hd
    rw [h.inv.stored_eq hd, h.inv.lengths]
    simp [Dict.keys, lensOf, Function.comp_def]
  · intro d hd
    rw [h.inv.stored_eq hd, h.inv.lengths, List.map_map]
    apply List.map_congr_left
    intro e he
    simp [h.len e he]

/-- C04: sampling never looks up something that is gone (`KeyError`) and never violates an internal
assertion. What is left: an empty memory (`ZeroDivisionError`, `ValueError`), too short sequences
(`ValueError`, `IndexError`), identities beyond int64 (`OverflowError`). -/
theorem C04_sample_fails_only {columns : List Column} {maxlen : Int} {lk : String}
    {t0 t t' : Table V} {ops : List (Op V)} (hc : Created columns maxlen lk t0) (hr : Run t0 ops t)
    (hw : WellTargeted columns) {count n : Nat} {c r : Nat → Nat} {junk : String → Nat → Cell V}
    {e : Err} (hs : Table.sample count n c r junk t = (t', .error e)) :
    e = .indexError ∨ e = .valueError ∨ e = .zeroDivision ∨ e = .overflowError := by
  obtain ⟨q, h⟩ := run_hist hc hr
  exact sample_err h.inv (h.virtOk hw) hs

/-- C04: adding a well formed new sequence never fails on a missing entry; it fails only if the
sequence is longer than the capacity, or a random ejector is short of draws, or an identity is beyond
int64. -/
theorem C04_add_fails_only {columns : List Column} {maxlen : Int} {lk : String}
    {t0 t t' : Table V} {ops : List (Op V)} (hc : Created columns maxlen lk t0) (hr : Run t0 ops t)
    {draws : List Nat} {id : Int} {seq : Seqn V} {rows : List V} {e : Err} (hs : SeqOk t seq)
    (hid : Table.wrapId id ∉ t.lengths.keys) (hrows : seq.get? lk = some rows)
    (ha : Table.addSequence draws id seq t = (t', .error e)) :
    (e = .indexError ∧ t.maxlen < (rows.length : Int)) ∨ e = .diverges ∨
      (e = .valueError ∧ t.maxlen < (rows.length : Int)) ∨ e = .overflowError := by
  obtain ⟨q, h⟩ := run_hist hc hr
  rcases add_err h.inv hs (by rw [h.inv.lengths] at hid; simpa using hid)
    (by rw [h.key]; exact hrows) ha with h1 | h1 | h1 | h1
  · exact Or.inl h1
  · exact Or.inr (Or.inl h1)
  · exact Or.inr (Or.inr (Or.inl ⟨h1.1, h1.2.2⟩))
  · exact Or.inr (Or.inr (Or.inr h1))

/-- C04: no stored sequence is out of reach of the sampler. -/
theorem C04_every_stored_can_be_sampled {columns : List Column} {maxlen : Int} {lk : String}
    {t0 t : Table V} {ops : List (Op V)} (hc : Created columns maxlen lk t0) (hr : Run t0 ops t)
    {n : Nat} (hn : 0 < n) {d : Dict Int (List V)} (hd : t.stored lk = some d)
    (hlong : ∀ p ∈ d, n ≤ p.2.length) (hfit : ∀ id ∈ d.keys, -2^63 ≤ id ∧ id < 2^63) {id : Int}
    (hid : id ∈ d.keys) :
    ∃ count c r s' pts, t.sampler.sample count n c r = (s', .ok pts) ∧ id ∈ pts.map Prod.fst := by
  obtain ⟨_, _, h3, h4⟩ := C04_indices_agree hc hr
  obtain ⟨q, h⟩ := run_hist hc hr
  have hl := h4 d hd
  have hl' := h.inv.lengths
  have hk : t.lengths.keys = d.keys := (h3 lk d hd).symm
  have ht := h.inv.sampler
  rw [← hl'] at ht
  apply Strategy.sample_reaches (l := t.lengths) _ ht hn
  · intro p hp
    rw [hl] at hp
    obtain ⟨x, hx, rfl⟩ := List.mem_map.1 hp
    exact hlong x hx
  · intro j hj
    have := hfit j (by rw [← hk]; exact hj)
    simpa [fitsInt64] using this
  · rw [hk]; exact hid
  · rw [hl']; simpa using h.inv.nodup

example : WellTargeted Ex.cols := by
  intro c hc k tgt hk
  simp only [Ex.cols, List.mem_cons, List.not_mem_nil, or_false] at hc
  rcases hc with rfl | rfl | rfl | rfl | rfl <;> simp at hk <;> obtain ⟨rfl, rfl⟩ := hk <;> decide +kernel
example := C04_every_stored_can_be_sampled Ex.created Ex.run (n := 2) (by decide)
  (d := [(8, [20, 21, 22]), (9, [30, 31])]) (by decide +kernel) (by decide) (by decide) (id := 9) (by decide)

/-! ## C08 -/

/-- Everything but the strategies, when a stored identity is added again and fits. -/
theorem reuse_write {t : Table V} {q : List (Entry V)} {id : Int} {len : Nat} {seq : Seqn V}
    (h : Inv t q) (hs : SeqOk t seq) {name : String} {d : Dict Int (List V)}
    (hd : t.stored name = some d) :
    ∃ t1, Res.forEach seq (Table.writeColumn id) t = (t1, .ok ()) ∧ t1.sampler = t.sampler ∧
      t1.ejector = t.ejector ∧ t1.total = t.total ∧ t1.lengths = t.lengths ∧
      t1.stored name = some (d.set id (rowsOf seq name)) := by
  refine ⟨_, writeColumns_ok seq hs.names hs.known h.keys_eq h.names, rfl, rfl, rfl, rfl, ?_⟩
  unfold Table.stored at hd ⊢
  have hmap : ∀ (data : Dict String (Store V)), Dict.get? (data.map (putSeq id seq)) name
      = (data.get? name).map (fun s => (putSeq id seq (name, s)).2) := by
    intro data
    induction data with
    | nil => rfl
    | cons p data ih =>
      obtain ⟨n, s⟩ := p
      have hf : (putSeq id seq (n, s)).1 = n := by unfold putSeq; split <;> rfl
      simp only [List.map_cons]
      rw [show putSeq id seq (n, s) = (n, (putSeq id seq (n, s)).2) from Prod.ext hf rfl]
      simp only [Dict.get?]
      by_cases hnn : n = name
      · subst hnn; simp
      · simp only [if_neg hnn]; exact ih
  rw [hmap]
  cases hg : t.data.get? name with
  | none => rw [hg] at hd; simp at hd
  | some s =>
    rw [hg] at hd
    have hcol : (name, s.kind) ∈ t.columns := by
      rw [← h.shape]; exact List.mem_map.2 ⟨(name, s), Dict.mem_of_get? hg, rfl⟩
    cases s with
    | virt k tgt => simp at hd
    | plain d' =>
      simp only [Option.some.injEq] at hd; subst hd
      obtain ⟨rows, hrows⟩ := Dict.get?_isSome_of_mem (hs.complete _ hcol (Or.inl rfl))
      simp [putSeq, hrows, Store.put, rowsOf]
    | tag d' =>
      simp only [Option.some.injEq] at hd; subst hd
      obtain ⟨rows, hrows⟩ := Dict.get?_isSome_of_mem (hs.complete _ hcol (Or.inr rfl))
      simp [putSeq, hrows, Store.put, rowsOf]

/-- C08, what does hold with random sampler and ejector: adding a stored identity again (without need
to make room) returns, and the new rows replace the old ones in place. Missing for the full claim:
`size()` is then too large by exactly the length of the replaced sequence. -/
theorem C08_reuse_random_partial {columns : List Column} {maxlen : Int} {lk : String}
    {t0 t : Table V} {ops : List (Op V)} (hc : Created columns maxlen lk t0) (hr : Run t0 ops t)
    (hsf : ∀ f, t.sampler ≠ .fifo f) (hef : ∀ f, t.ejector ≠ .fifo f)
    (draws : List Nat) (id : Int) (seq : Seqn V) (hs : SeqOk t seq) {rows : List V}
    (hrows : seq.get? lk = some rows) (hfit : t.size + rows.length ≤ t.maxlen)
    {name : String} {d : Dict Int (List V)} (hd : t.stored name = some d) :
    ∃ t', Table.addSequence draws id seq t = (t', .ok ()) ∧
      t'.stored name = some (d.set (Table.wrapId id) (rowsOf seq name)) ∧
      t'.lengths = t.lengths.set (Table.wrapId id) rows.length ∧
      t'.size = t.size + rows.length := by
  obtain ⟨q, h⟩ := run_hist hc hr
  obtain ⟨t1, w1, w2, w3, w4, w5, w6⟩ := reuse_write (id := Table.wrapId id) (len := rows.length) h.inv hs hd
  have hng : ¬ (t.total + rows.length > t.maxlen) := by simp only [Table.size] at hfit; omega
  have htrack : ∀ s : Strategy, (∀ f, s ≠ .fifo f) → ∀ i len, ∃ s', s.track i len = (s', .ok ()) := by
    intro s hs i len
    cases s with
    | fifo f => exact absurd rfl (hs f)
    | uniform s => exact ⟨_, rfl⟩
    | coverage s => exact ⟨_, rfl⟩
  obtain ⟨s1, hs1⟩ := htrack t.sampler hsf (Table.wrapId id) rows.length
  obtain ⟨s2, hs2⟩ := htrack t.ejector hef (Table.wrapId id) rows.length
  refine ⟨{ t1 with
    total := t1.total + rows.length, lengths := t1.lengths.set (Table.wrapId id) rows.length,
    sampler := s1, ejector := s2 }, ?_, w6, ?_, ?_⟩
  · unfold Table.addSequence
    rw [h.key, hrows]
    simp only [if_neg hng, Res.andThen_ok, w1, w2, w3, hs1, hs2, Res.lift]
  · simp only [w5]
  · simp only [Table.size, w4]

/-- C08 with a FIFO strategy: adding a stored identity again always raises `AssertionError` (but
only after the columns and `size()` were changed, see `C08_false`). -/
theorem C08_reuse_fifo_raises_partial {columns : List Column} {maxlen : Int} {lk : String}
    {t0 t : Table V} {ops : List (Op V)} (hc : Created columns maxlen lk t0) (hr : Run t0 ops t)
    (hf : (∃ f, t.sampler = .fifo f) ∨ ∃ f, t.ejector = .fifo f)
    (draws : List Nat) (id : Int) (seq : Seqn V) (hs : SeqOk t seq) {rows : List V}
    (hid : Table.wrapId id ∈ t.lengths.keys)
    (hrows : seq.get? lk = some rows) (hfit : t.size + rows.length ≤ t.maxlen) :
    ∃ t', Table.addSequence draws id seq t = (t', .error .assertionError) := by
  obtain ⟨q, h⟩ := run_hist hc hr
  have hng : ¬ (t.total + rows.length > t.maxlen) := by simp only [Table.size] at hfit; omega
  have hft : ∀ (s : Fifo), (Strategy.fifo s).Tracks (lensOf q) → ∀ len,
      ∃ s', (Strategy.fifo s).track (Table.wrapId id) len = (s', .error .assertionError) := by
    intro s hs len
    obtain ⟨h1, h2, h3⟩ := hs
    have : s.lens.contains (Table.wrapId id) = true := by
      rw [Dict.contains_iff, h2, ← h.inv.lengths]; exact hid
    simp only [Strategy.track, Fifo.track, h3, this, Bool.false_eq_true, if_false, if_true]
    exact ⟨_, rfl⟩
  have hs1 := h.inv.sampler
  have hs2 := h.inv.ejector
  have hw := writeColumns_ok (id := Table.wrapId id) seq hs.names hs.known h.inv.keys_eq h.inv.names
  unfold Table.addSequence
  rw [h.key, hrows]
  simp only [if_neg hng, Res.andThen_ok, hw]
  cases hS : t.sampler with
  | fifo s =>
    rw [hS] at hs1
    obtain ⟨s', h4⟩ := hft s hs1 rows.length
    simp only [h4, Res.lift, Res.andThen_error]
    exact ⟨_, rfl⟩
  | uniform s =>
    rcases hf with ⟨f, hf⟩ | ⟨f, hf⟩
    · rw [hS] at hf; simp at hf
    · rw [hf] at hs2
      obtain ⟨s', h4⟩ := hft f hs2 rows.length
      simp only [Strategy.track, Uniform.track, Res.lift, Res.andThen_ok, hf]
      simp only [Strategy.track, Res.lift] at h4
      rw [Prod.mk.injEq] at h4
      rw [h4.2]
      exact ⟨_, rfl⟩
  | coverage s =>
    rcases hf with ⟨f, hf⟩ | ⟨f, hf⟩
    · rw [hS] at hf; simp at hf
    · rw [hf] at hs2
      obtain ⟨s', h4⟩ := hft f hs2 rows.length
      simp only [Strategy.track, Coverage.track, Res.lift, Res.andThen_ok, hf]
      simp only [Strategy.track, Res.lift] at h4
      rw [Prod.mk.injEq] at h4
      rw [h4.2]
      exact ⟨_, rfl⟩

example : (∃ f, Ex.t1.ejector = .fifo f) ∧ Table.wrapId 7 ∈ Ex.t1.lengths.keys ∧
    Ex.t1.size + 1 ≤ Ex.t1.maxlen := ⟨⟨{ ids := [7], lens := [(7, 2)] }, by decide +kernel⟩, by decide +kernel⟩

end Verif.Props
