import Verif.Props.Replay
import Verif.Lemmas.Twin

/-!
# C21, C22, C75: store and restore
-/

namespace Verif.Props

open Verif Spec

variable {V : Type u}

/-- What a user can see of the contents of two memories is the same: the identities with their lengths in
order, the size, and every stored column. -/
structure SameContents (t t2 : Table V) : Prop where
  lengths : t2.lengths = t.lengths
  size : t2.size = t.size
  stored : ∀ name, t2.stored name = t.stored name

theorem twin_same {t t2 : Table V} {q : List (Entry V)} (h : Twin t t2 q) : SameContents t t2 :=
  ⟨by rw [h.left.lengths, h.right.lengths], by simp only [Table.size, h.left.total, h.right.total],
    fun name => by simp only [Table.stored, h.data]⟩

theorem stored_phys {t : Table V} {name : String} {d : Dict Int (List V)} (h : t.stored name = some d) :
    name ∈ physNames t.data := by
  simp only [Table.stored] at h
  split at h
  · rename_i d' hg; exact mem_physNames.2 ⟨_, Dict.mem_of_get? hg, Or.inl rfl⟩
  · rename_i d' hg; exact mem_physNames.2 ⟨_, Dict.mem_of_get? hg, Or.inr rfl⟩
  · simp at h

/-- C21: storing a reachable memory succeeds if no stored column is empty and the identities are
non-negative int64 numbers. -/
theorem C21_store_succeeds {columns : List Column} {maxlen : Int} {lk : String}
    {t0 t : Table V} {ops : List (Op V)} (hc : Created columns maxlen lk t0) (hr : Run t0 ops t)
    (hids : ∀ id ∈ t.lengths.keys, 0 ≤ id ∧ id < 2^63)
    (hne : ∀ name d, t.stored name = some d → ∃ id rows, (id, rows) ∈ d ∧ rows ≠ []) :
    ∃ a, t.serialize = .ok a := by
  obtain ⟨q, hh⟩ := run_hist hc hr
  refine ⟨_, serialize_ok hh.inv ?_ hids⟩
  intro name d hd hfl
  obtain ⟨id, rows, hm, hrows⟩ := hne name d hd
  apply hrows
  rw [List.flatten_eq_nil_iff] at hfl
  exact hfl rows (List.mem_map.2 ⟨_, hm, rfl⟩)

theorem round_trip {columns : List Column} {maxlen : Int} {lk : String}
    {t0 t : Table V} {ops : List (Op V)} (hc : Created columns maxlen lk t0) (hr : Run t0 ops t)
    {d : Dict Int (List V)} (hlk : t.stored lk = some d) (hpos : ∀ id ∈ t.lengths.keys, 0 ≤ id)
    {a : Archive V} (ha : t.serialize = .ok a)
    {t1 : Table V} (hc1 : Created columns t.maxlen lk t1)
    (hks : t1.sampler.kind = t.sampler.kind) (hke : t1.ejector.kind = t.ejector.kind) (draws : List Nat) :
    ∃ t2 q, Table.deserialize a draws t1 = (t2, .ok ()) ∧ Twin t t2 q ∧ t2.filled = false ∧
      t2.sampler.options = t1.sampler.options ∧ t2.ejector.options = t1.ejector.options := by
  obtain ⟨q, hh⟩ := run_hist hc hr
  obtain ⟨x, hx⟩ := hist_buildable hc
  have hphys : lk ∈ physNames t.data := stored_phys hlk
  obtain ⟨hne, hfit⟩ := serialize_inv hh.inv ha hphys
  obtain ⟨_, s, e, hs, he, hnew⟩ := hc1
  obtain ⟨h1, h2, h3, h4, h5⟩ := new_ok hs he hnew
  have hcols : t1.columns = t.columns := by rw [hh.columns, h5]
  obtain ⟨t2, k1, k2, k3, k4, k5, k6, k7, k8⟩ := restore_ok hh.inv h1 hcols (by rw [hh.key, h4])
    (by rw [h5]; exact hx) (by rw [hh.key]; exact hphys) (by rw [hh.key]; exact hh.len)
    (by rw [h3]; exact hh.cap)
    (by
      intro id hid
      refine ⟨hpos id hid, ?_⟩
      rw [hh.inv.lengths, keys_lensOf] at hid
      obtain ⟨e, he, rfl⟩ := List.mem_map.1 hid
      have := hfit e he
      simp only [fitsInt64, Bool.and_eq_true, decide_eq_true_eq] at this
      exact this.2)
    hks hke (Or.inr h1.sampler) (Or.inr h1.ejector) ha hne draws
  refine ⟨t2, q, k1, ⟨hh.inv, k2, k3, k4, by rw [k5, h3], ?_, hfit⟩, k6, k7, k8⟩
  rw [kind_of_options k8, hke]

/-- C21: restoring an export into a new memory of the same configuration succeeds and gives the same contents;
every later history of the original (in particular, with the same random draws) is a history of the restored
memory with the same contents at its end, and conversely. -/
theorem C21_round_trip {columns : List Column} {maxlen : Int} {lk : String}
    {t0 t : Table V} {ops : List (Op V)} (hc : Created columns maxlen lk t0) (hr : Run t0 ops t)
    {d : Dict Int (List V)} (hlk : t.stored lk = some d) (hpos : ∀ id ∈ t.lengths.keys, 0 ≤ id)
    {a : Archive V} (ha : t.serialize = .ok a)
    {t1 : Table V} (hc1 : Created columns t.maxlen lk t1)
    (hks : t1.sampler.kind = t.sampler.kind) (hke : t1.ejector.kind = t.ejector.kind) (draws : List Nat) :
    ∃ t2, Table.deserialize a draws t1 = (t2, .ok ()) ∧ SameContents t t2 ∧
      t2.maxlen = t.maxlen ∧ t2.columns = t.columns ∧
      t2.sampler.options = t1.sampler.options ∧ t2.ejector.options = t1.ejector.options ∧
      ∀ later : List (Op V),
        (∀ o ∈ later, ∀ id seq ds, o = .add id seq ds → fitsInt64 (Table.wrapId id) = true) →
        (∀ t', Run t later t' → ∃ t2', Run t2 later t2' ∧ SameContents t' t2') ∧
        (∀ t2', Run t2 later t2' → ∃ t', Run t later t' ∧ SameContents t' t2') := by
  obtain ⟨t2, q, h1, h2, h3, h4, h5⟩ := round_trip hc hr hlk hpos ha hc1 hks hke draws
  refine ⟨t2, h1, twin_same h2, h2.maxlen, h2.columns, h4, h5, ?_⟩
  intro later hf
  have hf' : ∀ o ∈ later, OpFits o := by
    intro o ho
    cases o with
    | add id seq ds => exact hf _ ho id seq ds rfl
    | resize n => trivial
    | sample => trivial
  constructor
  · intro t' hr'
    obtain ⟨t2', q', k1, k2⟩ := h2.run hr' hf'
    exact ⟨t2', k1, twin_same k2⟩
  · intro t2' hr'
    obtain ⟨t', q', k1, k2⟩ := h2.symm.run hr' hf'
    exact ⟨t', k1, twin_same k2.symm⟩

/-! ## C75: full() after a restore -/

/-- C75: a restored memory never claims to be full, whatever the exported one did. -/
theorem C75_restored_not_full {columns : List Column} {maxlen : Int} {lk : String}
    {t0 t : Table V} {ops : List (Op V)} (hc : Created columns maxlen lk t0) (hr : Run t0 ops t)
    {d : Dict Int (List V)} (hlk : t.stored lk = some d) (hpos : ∀ id ∈ t.lengths.keys, 0 ≤ id)
    {a : Archive V} (ha : t.serialize = .ok a)
    {t1 : Table V} (hc1 : Created columns t.maxlen lk t1)
    (hks : t1.sampler.kind = t.sampler.kind) (hke : t1.ejector.kind = t.ejector.kind) (draws : List Nat) :
    (Table.deserialize a draws t1).1.full = false := by
  obtain ⟨t2, q, h1, _, h3, _⟩ := round_trip hc hr hlk hpos ha hc1 hks hke draws
  rw [h1]; exact h3

/-! ## C22 -/

theorem run_inv {t t' : Table V} {q : List (Entry V)} (h : Inv t q) {ops : List (Op V)} (hr : Run t ops t') :
    ∃ q', Inv t' q' ∧ t'.lengthKey = t.lengthKey ∧
      ∀ e ∈ q', e ∈ q ∨ e ∈ added (acts t.lengthKey ops) := by
  induction hr with
  | nil => exact ⟨q, h, rfl, fun e he => Or.inl he⟩
  | @add ops t1 t2 id seq draws _ hs hid ha ih =>
    obtain ⟨q', h1, h2, h3⟩ := ih
    obtain ⟨ids, hids⟩ := add_ok h1 hs (by rw [h1.lengths, keys_lensOf] at hid; exact hid) ha
    refine ⟨_, hids.inv, by rw [hids.config.lengthKey, h2], ?_⟩
    intro e he
    rw [acts_append]
    rcases List.mem_append.1 he with he | he
    · rcases h3 e (List.mem_filter.1 he).1 with h | h
      · exact Or.inl h
      · right; simp only [added, List.filterMap_append, List.mem_append]; exact Or.inl h
    · right
      simp only [List.mem_singleton] at he; subst he
      simp only [added, List.filterMap_append, List.mem_append]
      right
      simp [Op.toAct, h2]
  | @resize ops t1 t2 n _ hres ih =>
    obtain ⟨q', h1, h2, h3⟩ := ih
    unfold Table.resize at hres
    split at hres
    · simp at hres
    · injection hres with hres _
      subst hres
      refine ⟨q', ⟨h1.nodup, h1.lengths, h1.total, h1.shape, h1.names, h1.stores, h1.sampler, h1.ejector⟩, h2, ?_⟩
      intro e he
      rcases h3 e he with h | h
      · exact Or.inl h
      · right; rw [acts_append]; simp only [added, List.filterMap_append, List.mem_append]; exact Or.inl h
  | @sample ops t1 t2 count n c r junk x _ hsam hx ih =>
    obtain ⟨q', h1, h2, h3⟩ := ih
    obtain ⟨k1, k2, _, _⟩ := Table.sample_inv h1 hsam hx
    refine ⟨q', k1, by rw [k2.lengthKey, h2], ?_⟩
    intro e he
    rcases h3 e he with h | h
    · exact Or.inl h
    · right; rw [acts_append]; simp only [added, List.filterMap_append, List.mem_append]; exact Or.inl h

/-- The identities a memory can hand out when sampling or ejecting. -/
def Reachable (t : Table V) (id : Int) : Prop :=
  (∃ (count n : Nat) (c r : Nat → Nat) (s : Strategy) (pts : List SamplePoint),
    t.sampler.sample count n c r = (s, .ok pts) ∧ id ∈ pts.map Prod.fst) ∨
  (∃ count draws s ids, t.ejector.eject count draws = (s, .ok ids) ∧ id ∈ ids)

/-- C22 for FIFO sampling and ejection: whatever the target memory held, after restoring, and after any
later history, only identities of the export or of later adds are sampled or ejected. (Missing: the other
strategies, for which it is false, see `C22_false`.) -/
theorem C22_restore_replaces_partial {columns columns' : List Column} {maxlen maxlen' : Int} {lk : String}
    {t0 t u0 u : Table V} {ops ops' : List (Op V)}
    (hc : Created columns maxlen lk t0) (hr : Run t0 ops t)
    (hc' : Created columns' maxlen' lk u0) (hr' : Run u0 ops' u) (hcols : u.columns = t.columns)
    {d : Dict Int (List V)} (hlk : t.stored lk = some d) (hpos : ∀ id ∈ t.lengths.keys, 0 ≤ id)
    {a : Archive V} (ha : t.serialize = .ok a) (hcap : t.size ≤ u.maxlen)
    (hs : t.sampler.kind = 0) (he : t.ejector.kind = 0) (hs' : u.sampler.kind = 0) (he' : u.ejector.kind = 0)
    (draws : List Nat) :
    ∃ u2, Table.deserialize a draws u = (u2, .ok ()) ∧ SameContents t u2 ∧
      ∀ later u3, Run u2 later u3 → ∀ id, Reachable u3 id →
        id ∈ t.lengths.keys ∨ ∃ e ∈ added (acts lk later), e.id = id := by
  obtain ⟨q, hh⟩ := run_hist hc hr
  obtain ⟨q1, hh1⟩ := run_hist hc' hr'
  obtain ⟨x, hx⟩ := hist_buildable hc'
  have hphys : lk ∈ physNames t.data := stored_phys hlk
  obtain ⟨hne, hfit⟩ := serialize_inv hh.inv ha hphys
  obtain ⟨u2, k1, k2, k3, k4, k5, k6, k7, k8⟩ := restore_ok hh.inv hh1.inv hcols (by rw [hh.key, hh1.key])
    (by rw [hh1.columns]; exact hx) (by rw [hh.key]; exact hphys) (by rw [hh.key]; exact hh.len)
    (by have := hh.inv.total; rw [Table.size] at hcap; omega)
    (by
      intro id hid
      refine ⟨hpos id hid, ?_⟩
      rw [hh.inv.lengths, keys_lensOf] at hid
      obtain ⟨e, he, rfl⟩ := List.mem_map.1 hid
      have := hfit e he
      simp only [fitsInt64, Bool.and_eq_true, decide_eq_true_eq] at this
      exact this.2)
    (by rw [hs, hs']) (by rw [he, he']) (Or.inl hs') (Or.inl he') ha hne draws
  refine ⟨u2, k1, ⟨by rw [k2.lengths, hh.inv.lengths], by simp only [Table.size, k2.total, hh.inv.total], ?_⟩, ?_⟩
  · intro name
    have tw : Twin { t with maxlen := u2.maxlen } u2 q :=
      ⟨⟨hh.inv.nodup, hh.inv.lengths, hh.inv.total, hh.inv.shape, hh.inv.names, hh.inv.stores, hh.inv.sampler,
        hh.inv.ejector⟩, k2, k3, k4, rfl, by rw [kind_of_options k8, he', he], hfit⟩
    exact (twin_same tw).stored name
  · intro later u3 hl id hreach
    obtain ⟨q', i1, i2, i3⟩ := run_inv k2 hl
    have hin : id ∈ q'.map Entry.id := by
      rcases hreach with ⟨count, n, c, r, s, pts, h1, h2⟩ | ⟨count, ds, s, ids, h1, h2⟩
      · rcases Strategy.sample_cases (count := count) (n := n) (c := c) (r := r)
          (by simpa using i1.nodup) i1.sampler with ⟨s', e, g1, _⟩ | ⟨s', pts', g1, _, g3⟩
        · rw [h1] at g1; simp at g1
        · rw [h1] at g1
          injection g1 with _ g1; injection g1 with g1; subst g1
          obtain ⟨p, hp, rfl⟩ := List.mem_map.1 h2
          obtain ⟨len, hl, _⟩ := g3 p hp
          have := Dict.mem_keys_of_get? hl
          rwa [keys_lensOf] at this
      · have := (Strategy.tracks_eject (by simpa using i1.nodup) i1.ejector h1).2.subset id h2
        rwa [keys_lensOf] at this
    obtain ⟨e, he1, he2⟩ := List.mem_map.1 hin
    rcases i3 e he1 with h | h
    · left; rw [hh.inv.lengths, keys_lensOf]; exact List.mem_map.2 ⟨e, h, he2⟩
    · right; rw [k4, hh.key] at h; exact ⟨e, h, he2⟩

namespace ExS

/-- the memory restored into: it held the sequence 5 -/
def u0 : Table Nat := (Table.new Ex.cols 5 (.uniform {}) (.fifo {}) "actions").1
def u1 : Table Nat := (Table.addSequence [] 5 (Ex.ep [50] [51, 52] 0) u0).1
theorem urun : Run u0 [.add 5 (Ex.ep [50] [51, 52] 0) []] u1 :=
  Run.step (ops := []) Run.nil _ _ _
    ⟨by decide +kernel, by decide +kernel, by decide +kernel⟩ (by decide +kernel) (by decide +kernel)

def arch : Archive Nat := match Ex.t3.serialize with
  | .ok a => a
  | .error _ => ⟨[], none, none, [], [], []⟩
theorem stores : Ex.t3.serialize = .ok arch := by decide +kernel

/-- all-FIFO memories -/
def f0 : Table Nat := (Table.new Ex.cols 5 (.fifo {}) (.fifo {}) "actions").1
def f1 : Table Nat := (Table.addSequence [] 7 (Ex.ep [10, 11] [1, 2, 3] 0) f0).1
def f2 : Table Nat := (Table.addSequence [] 5 (Ex.ep [50] [51, 52] 0) f0).1
theorem fcreated : Created Ex.cols 5 "actions" f0 :=
  ⟨by decide, _, _, .fifo true true, .fifo true true, Prod.ext rfl (by decide +kernel)⟩
theorem frun1 : Run f0 [.add 7 (Ex.ep [10, 11] [1, 2, 3] 0) []] f1 :=
  Run.step (ops := []) Run.nil _ _ _
    ⟨by decide +kernel, by decide +kernel, by decide +kernel⟩ (by decide +kernel) (by decide +kernel)
theorem frun2 : Run f0 [.add 5 (Ex.ep [50] [51, 52] 0) []] f2 :=
  Run.step (ops := []) Run.nil _ _ _
    ⟨by decide +kernel, by decide +kernel, by decide +kernel⟩ (by decide +kernel) (by decide +kernel)
def farch : Archive Nat := match f1.serialize with
  | .ok a => a
  | .error _ => ⟨[], none, none, [], [], []⟩

end ExS

/-- C22 is false: with the uniform sampler, a memory that held a sequence before the restore still samples its
identity afterwards, and then the sampling raises `KeyError`. -/
theorem C22_false : ∃ (columns : List Column) (t0 t u0 u u2 : Table Nat) (ops ops' : List (Op Nat))
    (a : Archive Nat),
    Created columns 5 "actions" t0 ∧ Run t0 ops t ∧ Created columns 5 "actions" u0 ∧ Run u0 ops' u ∧
    t.serialize = .ok a ∧ Table.deserialize a [] u = (u2, .ok ()) ∧
    (5 : Int) ∉ t.lengths.keys ∧ Reachable u2 5 ∧
    (Table.sample 1 1 id id (fun _ _ => .bit false) u2).2 = .error .keyError := by
  refine ⟨Ex.cols, Ex.t0, Ex.t3, Ex.t0, ExS.u1, (Table.deserialize ExS.arch [] ExS.u1).1, Ex.ops, _, ExS.arch,
    Ex.created, Ex.run, Ex.created, ExS.urun, ExS.stores, Prod.ext rfl (by decide +kernel), by decide +kernel, ?_,
    by decide +kernel⟩
  refine Or.inl ⟨1, 1, id, id, _, [(5, 0, 1)], Prod.ext rfl (by decide +kernel), by decide +kernel⟩

/-- C75 is false: the exported memory is full, the restored one is not. -/
theorem C75_false : ∃ (columns : List Column) (t0 t t2 : Table Nat) (ops : List (Op Nat)) (a : Archive Nat),
    Created columns 5 "actions" t0 ∧ Run t0 ops t ∧ t.serialize = .ok a ∧
    Table.deserialize a [] t0 = (t2, .ok ()) ∧ SameContents t t2 ∧ t.full = true ∧ t2.full = false := by
  have hrt := round_trip Ex.created Ex.run (d := [(8, [20, 21, 22]), (9, [30, 31])]) (by decide +kernel)
    (by decide +kernel) ExS.stores (t1 := Ex.t0) Ex.created (by decide +kernel) (by decide +kernel) []
  obtain ⟨t2, q, h1, h2, h3, _⟩ := hrt
  exact ⟨Ex.cols, Ex.t0, Ex.t3, t2, Ex.ops, ExS.arch, Ex.created, Ex.run, ExS.stores, h1, twin_same h2,
    by decide +kernel, h3⟩

example : (Table.deserialize ExS.arch [] Ex.t0).1.lengths = [(8, 3), (9, 2)] ∧
    (Table.deserialize ExS.arch [] Ex.t0).1.stored "obs" = some [(8, [4, 5, 6, 7]), (9, [8, 9, 10])] := by
  decide +kernel
example := C21_store_succeeds Ex.created Ex.run (by decide +kernel) (by
  intro name d h
  have hm := stored_phys h
  have : name ∈ ["actions", "obs", "terminal"] := by
    have : physNames Ex.t3.data = ["actions", "obs", "terminal"] := by decide +kernel
    rwa [this] at hm
  simp only [List.mem_cons, List.not_mem_nil, or_false] at this
  rcases this with rfl | rfl | rfl
  · rw [show Ex.t3.stored "actions" = some [(8, [20, 21, 22]), (9, [30, 31])] by decide +kernel] at h
    injection h with h; subst h; exact ⟨8, [20, 21, 22], by simp, by simp⟩
  · rw [show Ex.t3.stored "obs" = some [(8, [4, 5, 6, 7]), (9, [8, 9, 10])] by decide +kernel] at h
    injection h with h; subst h; exact ⟨8, [4, 5, 6, 7], by simp, by simp⟩
  · rw [show Ex.t3.stored "terminal" = some [(8, [1]), (9, [1])] by decide +kernel] at h
    injection h with h; subst h; exact ⟨8, [1], by simp, by simp⟩)
example := C21_round_trip Ex.created Ex.run (d := [(8, [20, 21, 22]), (9, [30, 31])]) (by decide +kernel)
    (by decide +kernel) ExS.stores (t1 := Ex.t0) Ex.created (by decide +kernel) (by decide +kernel) []
example := C75_restored_not_full Ex.created Ex.run (d := [(8, [20, 21, 22]), (9, [30, 31])]) (by decide +kernel)
    (by decide +kernel) ExS.stores (t1 := Ex.t0) Ex.created (by decide +kernel) (by decide +kernel) []
example := C22_restore_replaces_partial ExS.fcreated ExS.frun1 ExS.fcreated ExS.frun2 (by decide +kernel)
    (d := [(7, [10, 11])]) (by decide +kernel) (by decide +kernel) (a := ExS.farch) (by decide +kernel)
    (by decide +kernel) (by decide +kernel) (by decide +kernel) (by decide +kernel) (by decide +kernel) []

end Verif.Props
