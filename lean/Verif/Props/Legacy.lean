import Verif.Props.Serialize
import Verif.Lemmas.Legacy

/-!
# C24, C76: importing legacy exports
-/

namespace Verif.Props

open Verif Spec

variable {V : Type u}

/-- The added identities are non-negative 64 bit numbers. -/
def PlainIds (ops : List (Op V)) : Prop :=
  ∀ o ∈ ops, ∀ id seq ds, o = .add id seq ds → 0 ≤ id ∧ id < 2^63

/-- Tables a user can have: newly created, used, or imported (again and again) from legacy exports of such tables
into new ones. -/
inductive Lived (columns : List Column) (lk : String) : Table V → Prop where
  | new {maxlen t} : Created columns maxlen lk t → Lived columns lk t
  | run {t ops t'} : Lived columns lk t → Run t ops t' → PlainIds ops → Lived columns lk t'
  | imported {t t1 t2 maxlen} : Lived columns lk t → t.sampler.kind ≠ 2 → t.ejector.kind ≠ 2 →
      Created columns maxlen lk t1 → Table.restoreLegacy t.storeLegacy t1 = (t2, .ok ()) → Lived columns lk t2

/-- What is known about such tables. -/
structure LivedInv (columns : List Column) (lk : String) (t : Table V) (q : List (Entry V)) : Prop where
  inv : Inv t q
  neg : NegFirst (q.map Entry.id)
  fits : ∀ e ∈ q, fitsInt64 e.id = true
  columns : t.columns = Dict.ofPairs (columns.map fun c => (c.name, c.kind))
  key : t.lengthKey = lk
  build : ∃ x, Table.buildStores (V := V) t.columns [] = .ok x

theorem wrapId_plain {id : Int} (h : 0 ≤ id) : Table.wrapId id = id := by
  unfold Table.wrapId; rw [if_neg (by omega)]

theorem run_livedInv {columns : List Column} {lk : String} {t t' : Table V} {q : List (Entry V)}
    (h : LivedInv columns lk t q) {ops : List (Op V)} (hr : Run t ops t') (hp : PlainIds ops) :
    ∃ q', LivedInv columns lk t' q' ∧ ∀ e ∈ q', e ∈ q ∨ 0 ≤ e.id := by
  induction hr with
  | nil => exact ⟨q, h, fun e he => Or.inl he⟩
  | @add ops t1 t2 id seq draws _ hs hid ha ih =>
    obtain ⟨q', h1, h2⟩ := ih (fun o ho => hp o (by simp [ho]))
    obtain ⟨ids, hids⟩ := add_ok h1.inv hs (by rw [h1.inv.lengths, keys_lensOf] at hid; exact hid) ha
    obtain ⟨p1, p2⟩ := hp (.add id seq draws) (by simp) id seq draws rfl
    refine ⟨_, ⟨hids.inv, ?_, ?_, by rw [hids.config.columns, h1.columns],
      by rw [hids.config.lengthKey, h1.key], by rw [hids.config.columns]; exact h1.build⟩, ?_⟩
    · rw [List.map_append]
      refine List.pairwise_append.2 ⟨List.Pairwise.sublist ((List.filter_sublist).map _) h1.neg, by simp, ?_⟩
      intro a _ b hb _
      simp only [List.map_cons, List.map_nil, List.mem_singleton] at hb
      subst hb
      show 0 ≤ Table.wrapId id
      rw [wrapId_plain p1]; exact p1
    · intro e he
      rcases List.mem_append.1 he with he | he
      · exact h1.fits e (List.mem_filter.1 he).1
      · simp only [List.mem_singleton] at he; subst he
        show fitsInt64 (Table.wrapId id) = true
        rw [wrapId_plain p1]
        simp only [fitsInt64, Bool.and_eq_true, decide_eq_true_eq]
        omega
    · intro e he
      rcases List.mem_append.1 he with he | he
      · exact h2 e (List.mem_filter.1 he).1
      · simp only [List.mem_singleton] at he; subst he
        right
        show 0 ≤ Table.wrapId id
        rw [wrapId_plain p1]; exact p1
  | @resize ops t1 t2 n _ hres ih =>
    obtain ⟨q', h1, h2⟩ := ih (fun o ho => hp o (by simp [ho]))
    unfold Table.resize at hres
    split at hres
    · simp at hres
    · injection hres with hres _
      subst hres
      have i := h1.inv
      exact ⟨q', ⟨⟨i.nodup, i.lengths, i.total, i.shape, i.names, i.stores, i.sampler, i.ejector⟩, h1.neg, h1.fits,
        h1.columns, h1.key, h1.build⟩, h2⟩
  | @sample ops t1 t2 count n c r junk x _ hsam hx ih =>
    obtain ⟨q', h1, h2⟩ := ih (fun o ho => hp o (by simp [ho]))
    obtain ⟨k1, k2, _, _⟩ := Table.sample_inv h1.inv hsam hx
    exact ⟨q', ⟨k1, h1.neg, h1.fits, by rw [k2.columns, h1.columns], by rw [k2.lengthKey, h1.key],
      by rw [k2.columns]; exact h1.build⟩, h2⟩

theorem created_livedInv {columns : List Column} {lk : String} {maxlen : Int} {t : Table V}
    (hc : Created columns maxlen lk t) : LivedInv columns lk t [] := by
  obtain ⟨x, hx⟩ := hist_buildable hc
  obtain ⟨_, s, e, hs, he, hnew⟩ := hc
  obtain ⟨h1, h2, h3, h4, h5⟩ := new_ok hs he hnew
  exact ⟨h1, by simp [NegFirst], by simp, h5, h4, x, by rw [h5]; exact hx⟩

theorem import_livedInv {columns : List Column} {lk : String} {maxlen : Int} {t t1 : Table V}
    {q : List (Entry V)} (h : LivedInv columns lk t q) (hc : Created columns maxlen lk t1)
    (hs : t.sampler.kind ≠ 2) (he : t.ejector.kind ≠ 2) :
    ∃ t2, Table.restoreLegacy t.storeLegacy t1 = (t2, .ok ()) ∧ LivedInv columns lk t2 (renameAll q) ∧
      t2.maxlen = t.maxlen ∧ t2.filled = t.filled := by
  have h1 := created_livedInv hc
  obtain ⟨x, hx⟩ := h.build
  obtain ⟨t2, k1, k2, k3, k4, k5, k6, k7, k8⟩ := restoreLegacy_ok h.inv h1.inv (by rw [h1.columns, h.columns]) hx
    h.neg h.fits hs he
  refine ⟨t2, k1, ⟨k2, ?_, ?_, by rw [k3, h.columns], by rw [k4, h.key], by rw [k3]; exact h.build⟩, k5, k6⟩
  · refine List.Pairwise.imp_of_mem (R := fun _ _ => True) ?_ (List.pairwise_of_forall (fun _ _ => trivial))
    intro a b ha _ _ h0
    exfalso
    simp only [renameAll, List.map_map] at ha
    obtain ⟨e, _, rfl⟩ := List.mem_map.1 ha
    have := importedId_neg e.id
    simp only [Function.comp_apply] at h0
    omega
  · intro e he
    obtain ⟨e0, h0, rfl⟩ := List.mem_map.1 he
    obtain ⟨m1, m2⟩ := List.mem_filter.1 h0
    exact fits_imported (by simpa using m2) (h.fits e0 m1)

theorem lived_inv {columns : List Column} {lk : String} {t : Table V} (h : Lived columns lk t) :
    ∃ q, LivedInv columns lk t q := by
  induction h with
  | new hc => exact ⟨[], created_livedInv hc⟩
  | run _ hr hp ih =>
    obtain ⟨q, hq⟩ := ih
    obtain ⟨q', hq', _⟩ := run_livedInv hq hr hp
    exact ⟨q', hq'⟩
  | @imported t t1 t2 maxlen _ hs he hc hr ih =>
    obtain ⟨q, hq⟩ := ih
    obtain ⟨t2', k1, k2, _⟩ := import_livedInv hq hc hs he
    rw [hr] at k1
    injection k1 with k1 _
    subst k1
    exact ⟨_, k2⟩

/-- The specification of the renaming: `k` becomes `-k - 1`, negative identities are dropped. -/
def renamed {α : Type v} (d : List (Int × α)) : List (Int × α) :=
  d.filterMap fun p => if p.1 < 0 then none else some (-p.1 - 1, p.2)

theorem renamed_eq {α : Type v} (d : Dict Int α) : renameKeys d = renamed d := by
  induction d with
  | nil => rfl
  | cons p d ih =>
    obtain ⟨k, v⟩ := p
    unfold renameKeys renamed at ih ⊢
    by_cases h : 0 ≤ k
    · rw [List.filter_cons_of_pos (by simpa using h), List.map_cons, ih, List.filterMap_cons]
      simp [show ¬ k < 0 by omega, importedId_of_nonneg h]
    · rw [List.filter_cons_of_neg (by simpa using h), ih, List.filterMap_cons]
      simp [show k < 0 by omega]

/-- C24 (FIFO and uniform strategies): importing a legacy export into a new memory succeeds. Each identity is
renamed to a distinct negative one, formerly imported ones are dropped, lengths and rows are kept, `size()` is the
total. (Missing: the coverage strategies, for which it is false, see `C24_false`.) -/
theorem C24_import_renames_partial {columns : List Column} {lk : String} {maxlen : Int} {t t1 : Table V}
    (h : Lived columns lk t) (hs : t.sampler.kind ≠ 2) (he : t.ejector.kind ≠ 2)
    (hc : Created columns maxlen lk t1) :
    ∃ t2, Table.restoreLegacy t.storeLegacy t1 = (t2, .ok ()) ∧
      t2.lengths = renamed t.lengths ∧ t2.lengths.keys.Nodup ∧ (∀ id ∈ t2.lengths.keys, id < 0) ∧
      t2.size = (t2.lengths.values.sum : Nat) ∧
      (∀ name, t2.stored name = (t.stored name).map renamed) ∧
      t2.maxlen = t.maxlen ∧ t2.full = t.full := by
  obtain ⟨q, hq⟩ := lived_inv h
  obtain ⟨t2, k1, k2, k3, k4⟩ := import_livedInv hq hc hs he
  have hl : t2.lengths = renamed t.lengths := by
    rw [k2.inv.lengths, hq.inv.lengths, ← renamed_eq]
    exact (renameKeys_map q Entry.len (fun _ _ => rfl)).symm
  refine ⟨t2, k1, hl, ?_, ?_, ?_, ?_, k3, k4⟩
  · rw [k2.inv.lengths]; simpa using k2.inv.nodup
  · intro id hid
    rw [hl, ← renamed_eq] at hid
    exact renameKeys_neg id hid
  · rw [Table.size, k2.inv.total, k2.inv.lengths]
    simp [total, lensOf, Dict.values, Function.comp_def]
  · intro name
    have hshape : t2.data.map (fun p => (p.1, p.2.kind)) = t.data.map (fun p => (p.1, p.2.kind)) := by
      rw [k2.inv.shape, hq.inv.shape, k2.columns, hq.columns]
    have key : ∀ (d d2 : Dict String (Store V)),
        (∀ n s, (n, s) ∈ d → StoreOk q n s) → (∀ n s, (n, s) ∈ d2 → StoreOk (renameAll q) n s) →
        d2.map (fun p => (p.1, p.2.kind)) = d.map (fun p => (p.1, p.2.kind)) →
        (match d2.get? name with
          | some (.plain d) => some d | some (.tag d) => some d | _ => none) =
        (match d.get? name with
          | some (.plain d) => some d | some (.tag d) => some d | _ => none).map renamed := by
      intro d
      induction d with
      | nil => intro d2 _ _ h; simp at h; subst h; rfl
      | cons x d ih =>
        intro d2 hd hd2 heq
        cases d2 with
        | nil => simp at heq
        | cons y d2 =>
          obtain ⟨n, s⟩ := x
          obtain ⟨n2, s2⟩ := y
          simp only [List.map_cons, List.cons.injEq, Prod.mk.injEq] at heq
          obtain ⟨⟨h1, h2⟩, h3⟩ := heq
          subst h1
          have ih := ih d2 (fun n s hm => hd n s (by simp [hm])) (fun n s hm => hd2 n s (by simp [hm])) h3
          have a := hd n2 s (by simp)
          have b := hd2 n2 s2 (by simp)
          by_cases hn : n2 = name
          · subst hn
            have hr : renamed (q.map fun e => (e.id, e.rows n2)) = (renameAll q).map fun e => (e.id, e.rows n2) := by
              rw [← renamed_eq]; exact renameKeys_map q (fun e => e.rows n2) (fun _ _ => rfl)
            cases s <;> cases s2 <;> simp_all [StoreOk, Store.kind, Dict.get?]
          · simp only [Dict.get?, if_neg hn]; exact ih
    exact key _ _ hq.inv.stores k2.inv.stores hshape

/-- C24: identities of live agents never equal an imported one, and the imported sequences that a memory holds
after any later history are among those it imported. -/
theorem C24_no_collision_partial {columns : List Column} {lk : String} {maxlen : Int} {t t1 t2 : Table V}
    (h : Lived columns lk t) (hs : t.sampler.kind ≠ 2) (he : t.ejector.kind ≠ 2)
    (hc : Created columns maxlen lk t1) (hr : Table.restoreLegacy t.storeLegacy t1 = (t2, .ok ())) :
    (∀ id : Int, -2^64 ≤ id → Table.wrapId id ∉ t2.lengths.keys) ∧
    ∀ later t3, Run t2 later t3 → PlainIds later →
      ∀ p ∈ t3.lengths, p.1 < 0 → p ∈ t2.lengths := by
  obtain ⟨q, hq⟩ := lived_inv h
  obtain ⟨t2', k1, k2, k3, k4⟩ := import_livedInv hq hc hs he
  rw [hr] at k1
  injection k1 with k1 _
  subst k1
  constructor
  · intro id hid hm
    rw [k2.inv.lengths, keys_lensOf] at hm
    simp only [renameAll, List.map_map] at hm
    obtain ⟨e, _, heq⟩ := List.mem_map.1 hm
    have := importedId_neg e.id
    simp only [Function.comp_apply] at heq
    unfold Table.wrapId at heq
    split at heq <;> omega
  · intro later t3 hr3 hp p hm hneg
    obtain ⟨q', hq', hsub⟩ := run_livedInv k2 hr3 hp
    rw [hq'.inv.lengths] at hm
    obtain ⟨e, hem, rfl⟩ := List.mem_map.1 hm
    rcases hsub e hem with h | h
    · rw [k2.inv.lengths]; exact List.mem_map.2 ⟨e, h, rfl⟩
    · simp only at hneg; omega

namespace ExL

def cols : List Column := [⟨"actions", .plain⟩, ⟨"obs", .plain⟩, ⟨"next_obs", .virt .next "obs"⟩]
def ep (a o : List Nat) : Seqn Nat := [("actions", a), ("obs", o)]

/-- a memory with coverage-based sampling -/
def c0 : Table Nat := (Table.new cols 5 (.coverage {}) (.fifo {}) "actions").1
def c1 : Table Nat := (Table.addSequence [] 3 (ep [10] [1, 2]) c0).1
def c2 : Table Nat := (Table.restoreLegacy c1.storeLegacy c0).1

theorem ccreated : Created cols 5 "actions" c0 :=
  ⟨by decide, _, _, .coverage, .fifo true true, Prod.ext rfl (by decide +kernel)⟩
theorem crun : Run c0 [.add 3 (ep [10] [1, 2]) []] c1 :=
  Run.step (ops := []) Run.nil _ _ _
    ⟨by decide +kernel, by decide +kernel, by decide +kernel⟩ (by decide +kernel) (by decide +kernel)

/-- a memory with uniform sampling -/
def t0 : Table Nat := (Table.new cols 3 (.uniform {}) (.fifo {}) "actions").1
def t1 : Table Nat := (Table.addSequence [] 3 (ep [10] [1, 2]) t0).1
def t2 : Table Nat := (Table.addSequence [] 0 (ep [20, 21] [3, 4, 5]) t1).1
def t3 : Table Nat := (Table.restoreLegacy t2.storeLegacy t0).1
def t4 : Table Nat := (Table.addSequence [] 3 (ep [30] [6, 7]) t3).1
def t5 : Table Nat := (Table.restoreLegacy t4.storeLegacy t0).1

theorem created : Created cols 3 "actions" t0 :=
  ⟨by decide, _, _, .uniform, .fifo true true, Prod.ext rfl (by decide +kernel)⟩
theorem run : Run t0 [.add 3 (ep [10] [1, 2]) [], .add 0 (ep [20, 21] [3, 4, 5]) []] t2 :=
  Run.step (ops := [_]) (Run.step (ops := []) Run.nil _ _ _
    ⟨by decide +kernel, by decide +kernel, by decide +kernel⟩ (by decide +kernel) (by decide +kernel))
    _ _ _ ⟨by decide +kernel, by decide +kernel, by decide +kernel⟩ (by decide +kernel) (by decide +kernel)
theorem plain : PlainIds [Op.add 3 (ep [10] [1, 2]) [], .add 0 (ep [20, 21] [3, 4, 5]) []] := by
  intro o ho id seq ds h
  simp only [List.mem_cons, List.not_mem_nil, or_false] at ho
  rcases ho with rfl | rfl <;> injection h with h <;> subst h <;> decide
theorem lived : Lived cols "actions" t2 := .run (.new created) run plain
theorem imported : Table.restoreLegacy t2.storeLegacy t0 = (t3, .ok ()) := Prod.ext rfl (by decide +kernel)

/-- exporting the imported memory in the current format -/
def arch : Archive Nat := match t3.serialize with
  | .ok a => a
  | .error _ => ⟨[], none, none, [], [], []⟩
def t6 : Table Nat := (Table.deserialize arch [] t0).1

end ExL

/-- C24 is false for the coverage strategies: after the import the sampler still knows the old identity, and
sampling raises `KeyError`. -/
theorem C24_false : ∃ (columns : List Column) (t0 t t2 : Table Nat) (ops : List (Op Nat)),
    Created columns 5 "actions" t0 ∧ Run t0 ops t ∧
    Table.restoreLegacy t.storeLegacy t0 = (t2, .ok ()) ∧ t2.lengths = [(-4, 1)] ∧ Reachable t2 3 ∧
    (Table.sample 1 1 id id (fun _ _ => .bit false) t2).2 = .error .keyError := by
  refine ⟨ExL.cols, ExL.c0, ExL.c1, ExL.c2, _, ExL.ccreated, ExL.crun, Prod.ext rfl (by decide +kernel),
    by decide +kernel, ?_, by decide +kernel⟩
  exact Or.inl ⟨1, 1, id, id, _, [(3, 0, 1)], Prod.ext rfl (by decide +kernel), by decide +kernel⟩

/-- C76 is false: a memory with imported sequences can be exported and restored in the current format without an
error, but the restored memory has other identities than its own ejector knows, and the next add that needs room
raises `KeyError`. -/
theorem C76_false : ∃ (columns : List Column) (t0 t t2 : Table Nat) (a : Archive Nat),
    Created columns 3 "actions" t0 ∧ Lived columns "actions" t ∧ t.serialize = .ok a ∧
    Table.deserialize a [] t0 = (t2, .ok ()) ∧
    t.lengths = [(-4, 1), (-1, 2)] ∧ t2.lengths = [(2^64 - 4, 1), (2^64 - 1, 2)] ∧
    (Table.addSequence [] 9 (ExL.ep [30] [6, 7]) t).2 = .ok () ∧
    (Table.addSequence [] 9 (ExL.ep [30] [6, 7]) t2).2 = .error .keyError :=
  ⟨ExL.cols, ExL.t0, ExL.t3, ExL.t6, ExL.arch, ExL.created,
    .imported ExL.lived (by decide +kernel) (by decide +kernel) ExL.created ExL.imported,
    by decide +kernel, Prod.ext rfl (by decide +kernel), by decide +kernel, by decide +kernel, by decide +kernel,
    by decide +kernel⟩

-- two generations: the sequences 3 and 0 become -4 and -1; the live agent 3 is added (ejecting -4); then a second
-- import drops -1 and renames 3
example : ExL.t3.lengths = [(-4, 1), (-1, 2)] ∧ ExL.t4.lengths = [(-1, 2), (3, 1)] ∧
    ExL.t5.lengths = [(-4, 1)] ∧ ExL.t5.stored "obs" = some [(-4, [6, 7])] := by decide +kernel
example := C24_import_renames_partial ExL.lived (by decide +kernel) (by decide +kernel) ExL.created
example := C24_no_collision_partial ExL.lived (by decide +kernel) (by decide +kernel) ExL.created ExL.imported

end Verif.Props
