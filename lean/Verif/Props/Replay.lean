import Verif.Lemmas.History
import Verif.Lemmas.Points
import Verif.Lemmas.Eject

/-!
# Replay memory: C01 - C08, C19, C20
-/

namespace Verif.Props

open Verif Spec

variable {V : Type u}

/-! ## A concrete history

Used below to show that the hypotheses of the theorems can be met: capacity 5, three episodes of
lengths 2, 3 and 2, so the first one has to go. -/

/-- `Run.add` with a computed result. -/
theorem Run.step {t0 t : Table V} {ops : List (Op V)} (h : Run t0 ops t) (draws : List Nat) (id : Int)
    (seq : Seqn V) (hs : SeqOk t seq) (hi : Table.wrapId id ∉ t.lengths.keys)
    (hok : (Table.addSequence draws id seq t).2 = .ok ()) :
    Run t0 (ops ++ [.add id seq draws]) (Table.addSequence draws id seq t).1 :=
  Run.add h hs hi (Prod.ext rfl hok)

namespace Ex

def cols : List Column := [⟨"actions", .plain⟩, ⟨"obs", .plain⟩, ⟨"next_obs", .virt .next "obs"⟩,
  ⟨"masks", .virt .masks "actions"⟩, ⟨"terminal", .tag⟩]

def ep (a : List Nat) (o : List Nat) (term : Nat) : Seqn Nat :=
  [("actions", a), ("obs", o), ("terminal", [term])]

def t0 : Table Nat := (Table.new cols 5 (.uniform {}) (.fifo {}) "actions").1
def t1 : Table Nat := (Table.addSequence [] 7 (ep [10, 11] [1, 2, 3] 0) t0).1
def t2 : Table Nat := (Table.addSequence [] 8 (ep [20, 21, 22] [4, 5, 6, 7] 1) t1).1
def t3 : Table Nat := (Table.addSequence [] 9 (ep [30, 31] [8, 9, 10] 1) t2).1

def ops : List (Op Nat) := [.add 7 (ep [10, 11] [1, 2, 3] 0) [], .add 8 (ep [20, 21, 22] [4, 5, 6, 7] 1) [],
  .add 9 (ep [30, 31] [8, 9, 10] 1) []]

theorem created : Created cols 5 "actions" t0 :=
  ⟨by decide, _, _, .uniform, .fifo true true, Prod.ext rfl (by decide +kernel)⟩

theorem run : Run t0 ops t3 :=
  Run.step (ops := [_, _]) (Run.step (ops := [_]) (Run.step (ops := []) Run.nil _ _ _
    ⟨by decide +kernel, by decide +kernel, by decide +kernel⟩ (by decide +kernel) (by decide +kernel))
    _ _ _ ⟨by decide +kernel, by decide +kernel, by decide +kernel⟩ (by decide +kernel) (by decide +kernel))
    _ _ _ ⟨by decide +kernel, by decide +kernel, by decide +kernel⟩ (by decide +kernel) (by decide +kernel)

end Ex

/-! ## C01 -/

/-- C01: `size()` is the total length of the stored sequences. -/
theorem C01_size_is_stored_total {columns : List Column} {maxlen : Int} {lk : String}
    {t0 t : Table V} {ops : List (Op V)} (hc : Created columns maxlen lk t0) (hr : Run t0 ops t)
    {d : Dict Int (List V)} (hd : t.stored lk = some d) :
    t.size = ((d.values.map List.length).sum : Nat) := by
  obtain ⟨q, h⟩ := run_hist hc hr
  rw [h.inv.stored_eq hd, Table.size, h.inv.total]
  congr 1
  simp only [total, Dict.values, List.map_map]
  congr 1
  apply List.map_congr_left
  intro e he
  simpa using h.len e he

/-- C01: `size()` never exceeds the capacity (whatever the ejector draws). -/
theorem C01_size_le_capacity {columns : List Column} {maxlen : Int} {lk : String}
    {t0 t : Table V} {ops : List (Op V)} (hc : Created columns maxlen lk t0) (hr : Run t0 ops t) :
    0 ≤ t.size ∧ t.size ≤ t.maxlen ∧ t.maxlen = (queueAfter maxlen (acts lk ops)).1 := by
  obtain ⟨q, h⟩ := run_hist hc hr
  have h1 := h.inv.total
  have h2 := h.cap
  refine ⟨by rw [Table.size, h1]; omega, by rw [Table.size, h1]; exact h2, h.maxlen⟩

example : (Ex.t3.stored "actions").map Dict.keys = some [8, 9] ∧
    Ex.t3.size = 5 ∧ Ex.t3.maxlen = 5 := by decide +kernel
example := C01_size_le_capacity Ex.created Ex.run

/-! ## C02 -/

/-- C02: with FIFO ejection every column holds exactly the episodes of the bounded queue, in order. -/
theorem C02_fifo_is_bounded_queue {columns : List Column} {maxlen : Int} {lk : String}
    {t0 t : Table V} {ops : List (Op V)} (hc : Created columns maxlen lk t0) {f : Fifo}
    (hf : t0.ejector = .fifo f) (hr : Run t0 ops t) {name : String} {d : Dict Int (List V)}
    (hd : t.stored name = some d) :
    d = (queueAfter maxlen (acts lk ops)).2.map fun e => (e.id, e.rows name) :=
  (run_fifo hc (by rw [hf]; rfl) hr).1.inv.stored_eq hd

/-- C02: the bounded queue is always a suffix of the history that ends with the latest add. -/
theorem C02_suffix_of_history {columns : List Column} {maxlen : Int} {lk : String}
    {t0 t : Table V} {ops : List (Op V)} (hc : Created columns maxlen lk t0) {f : Fifo}
    (hf : t0.ejector = .fifo f) (hr : Run t0 ops t) {name : String} {d : Dict Int (List V)}
    (hd : t.stored name = some d) :
    d <:+ (added (acts lk ops)).map (fun e => (e.id, e.rows name)) ∧
    d.getLast? = (added (acts lk ops)).getLast?.map fun e => (e.id, e.rows name) := by
  have h := (run_fifo hc (by rw [hf]; rfl) hr).1
  rw [C02_fifo_is_bounded_queue hc hf hr hd]
  have hsuf : ∀ (as : List (Act V)) (cap : Int), (queueAfter cap as).2 <:+ added as := by
    intro as cap
    induction as using snocInduction with
    | nil => exact List.suffix_refl _
    | snoc as a ih =>
      cases a with
      | resize n => rw [queueAfter_resize, added_resize]; exact ih
      | add e =>
        rw [queueAfter_add, added_add]
        have hdrop : ∀ q : List (Entry V), dropOldest (queueAfter cap as).1 e.len q <:+ q := by
          intro q
          induction q with
          | nil => exact List.suffix_refl _
          | cons x q ihq =>
            unfold dropOldest
            split
            · exact List.suffix_refl _
            · exact ihq.trans (List.suffix_cons _ _)
        obtain ⟨p, hp⟩ := (hdrop (queueAfter cap as).2).trans ih
        exact ⟨p, by simp only [boundedAdd]; rw [← hp, List.append_assoc]⟩
  refine ⟨(hsuf _ _).map _, ?_⟩
  rw [List.getLast?_map]
  congr 1
  cases hl : (added (acts lk ops)).getLast? with
  | some e => exact h.newest e hl
  | none =>
    rw [List.getLast?_eq_none_iff] at hl
    have := h.sub
    rw [hl] at this
    rw [List.sublist_nil.1 this]; rfl

/-- The queue drops no more than it has to: what is kept fits, and with the youngest dropped
episode it would not. -/
theorem dropOldest_minimal (cap : Int) (n : Nat) (q : List (Entry V)) (hn : (n : Int) ≤ cap) :
    ∃ p, q = p ++ dropOldest cap n q ∧ (total (dropOldest cap n q) : Int) + n ≤ cap ∧
      ∀ pre last, p = pre ++ [last] → cap < (total (last :: dropOldest cap n q) : Int) + n := by
  induction q with
  | nil => exact ⟨[], rfl, by simpa [dropOldest] using hn, by intro pre last h; simp at h⟩
  | cons e q ih =>
    by_cases hfit : (total (e :: q) : Int) + n ≤ cap
    · rw [dropOldest, if_pos hfit]
      exact ⟨[], rfl, hfit, by intro pre last h; simp at h⟩
    · rw [dropOldest, if_neg hfit]
      obtain ⟨p, h1, h2, h3⟩ := ih
      refine ⟨e :: p, by rw [List.cons_append, ← h1], h2, ?_⟩
      intro pre last h
      cases pre with
      | nil =>
        simp only [List.nil_append, List.cons.injEq] at h
        obtain ⟨rfl, rfl⟩ := h
        rw [List.nil_append] at h1
        rw [← h1]; omega
      | cons x pre =>
        simp only [List.cons_append, List.cons.injEq] at h
        exact h3 pre last h.2

/-- C02: an add drops the oldest episodes and no more than it has to: the stored lengths and the content of every
column are those of before without a first part, and the new episode at the end; what is kept fits with the new one,
and with the youngest dropped episode it would not. -/
theorem C02_drops_only_what_is_needed {columns : List Column} {maxlen : Int} {lk : String}
    {t0 t t' : Table V} {ops : List (Op V)} (hc : Created columns maxlen lk t0) {f : Fifo}
    (hf : t0.ejector = .fifo f) (hr : Run t0 ops t) {draws : List Nat} {id : Int} {seq : Seqn V} (hs : SeqOk t seq)
    (hid : Table.wrapId id ∉ t.lengths.keys) (ha : Table.addSequence draws id seq t = (t', .ok ())) {rows : List V}
    (hrows : seq.get? lk = some rows) :
    ∃ dropped kept : Dict Int Nat, t.lengths = dropped ++ kept ∧ t'.lengths = kept ++ [(Table.wrapId id, rows.length)] ∧
      ((kept.values.sum : Nat) : Int) + rows.length ≤ t.maxlen ∧
      (∀ pre p, dropped = pre ++ [p] → t.maxlen < (((p.2 + kept.values.sum : Nat) : Int)) + rows.length) ∧
      ∀ name d d', t.stored name = some d → t'.stored name = some d' →
        d' = d.drop dropped.length ++ [(Table.wrapId id, rowsOf seq name)] := by
  have h := (run_fifo hc (by rw [hf]; rfl) hr).1
  have hr' := Run.add hr hs hid ha
  have h' := (run_fifo hc (by rw [hf]; rfl) hr').1
  have hacts : acts lk (ops ++ [.add id seq draws]) =
      acts lk ops ++ [.add (entryOf (Table.wrapId id) (rowsOf seq lk).length seq)] := by
    rw [acts_append]; rfl
  have hlen : (rowsOf seq lk).length = rows.length := by simp [rowsOf, hrows]
  have h'' := h'
  rw [hacts, queueAfter_add, hlen] at h''
  have hmax : (queueAfter maxlen (acts lk ops)).1 = t.maxlen := h.maxlen.symm
  rw [hmax] at h''
  have hfit : (rows.length : Int) ≤ t.maxlen := by
    have h1 := h''.cap
    have h2 := h''.maxlen
    rw [hacts, queueAfter_add] at h2
    rw [h2, hmax] at h1
    simp only [boundedAdd, total, List.map_append, List.sum_append, List.map_cons, List.map_nil, List.sum_cons, List.sum_nil,
      entryOf] at h1
    push_cast at h1
    have : (0 : Int) ≤ ((List.map Entry.len (dropOldest t.maxlen rows.length (queueAfter maxlen (acts lk ops)).2)).sum : Nat) :=
      Int.natCast_nonneg _
    omega
  obtain ⟨p, h1, h2, h3⟩ := dropOldest_minimal t.maxlen rows.length (queueAfter maxlen (acts lk ops)).2 hfit
  have hv : ∀ q : List (Entry V), (Dict.values (lensOf q)).sum = total q := by
    intro q; simp [Dict.values, lensOf, total, Function.comp_def]
  refine ⟨lensOf p, lensOf (dropOldest t.maxlen rows.length (queueAfter maxlen (acts lk ops)).2), ?_, ?_, ?_, ?_, ?_⟩
  · rw [h.inv.lengths]
    exact (congrArg lensOf h1).trans (by simp [lensOf])
  · rw [h''.inv.lengths]
    simp [lensOf, boundedAdd, entryOf]
  · rw [hv]; exact h2
  · intro pre x hx
    rw [lensOf, List.map_eq_append_iff] at hx
    obtain ⟨q1, q2, rfl, -, h5⟩ := hx
    rw [List.map_eq_singleton_iff] at h5
    obtain ⟨e, rfl, rfl⟩ := h5
    have := h3 q1 e rfl
    rw [hv]
    simpa [total] using this
  · intro name d d' hd hd'
    rw [h.inv.stored_eq hd, h''.inv.stored_eq hd']
    have hp : (lensOf p).length = p.length := by simp [lensOf]
    rw [hp, boundedAdd, List.map_append]
    have h4 := congrArg (fun q : List (Entry V) => (q.map fun e => (e.id, e.rows name)).drop p.length) h1
    simp only [List.map_append, List.drop_append, List.length_map] at h4
    rw [h4]
    simp [entryOf]

/-- C02: with FIFO ejection a well formed sequence that is not longer than the capacity can always
be added. -/
theorem C02_add_succeeds {columns : List Column} {maxlen : Int} {lk : String}
    {t0 t : Table V} {ops : List (Op V)} (hc : Created columns maxlen lk t0) {f : Fifo}
    (hf : t0.ejector = .fifo f) (hr : Run t0 ops t) (draws : List Nat) (id : Int) (seq : Seqn V)
    (hs : SeqOk t seq) (hid : Table.wrapId id ∉ t.lengths.keys) {rows : List V}
    (hrows : seq.get? lk = some rows) (hlen : (rows.length : Int) ≤ t.maxlen) :
    ∃ t', Table.addSequence draws id seq t = (t', .ok ()) := by
  obtain ⟨h, hk⟩ := run_fifo hc (by rw [hf]; rfl) hr
  apply add_succeeds h.inv hs (by rw [h.inv.lengths] at hid; simpa using hid)
    (rows := rows) (by rw [h.key]; exact hrows)
  intro _
  cases hE : t.ejector with
  | uniform s => rw [hE] at hk; simp [Strategy.kind] at hk
  | coverage s => rw [hE] at hk; simp [Strategy.kind] at hk
  | fifo s =>
    have ht := h.inv.ejector
    rw [hE] at ht
    obtain ⟨t1, t2, _⟩ := ht
    have hnd : (lensOf (queueAfter maxlen (acts lk ops)).2).keys.Nodup := by simpa using h.inv.nodup
    simp only [Strategy.eject, Fifo.eject, t1, t2]
    rcases Fifo.ejectLoop_complete (l := lensOf (queueAfter maxlen (acts lk ops)).2)
      (t.total + rows.length - t.maxlen) _ (fun _ h => h) with ⟨_, out, h3⟩ | ⟨h3, _⟩
    · exact ⟨_, out, by rw [h3]⟩
    · exfalso
      rw [lenSum_keys hnd] at h3
      have h4 := h.inv.total
      have h5 : trackedTotal (lensOf (queueAfter maxlen (acts lk ops)).2)
        = total (queueAfter maxlen (acts lk ops)).2 := by
        simp [trackedTotal, total, lensOf, Function.comp_def]
      omega

example : Ex.t0.ejector = .fifo {} := by decide +kernel
example : Ex.t3.stored "obs" = some [(8, [4, 5, 6, 7]), (9, [8, 9, 10])] := by decide +kernel
example := C02_drops_only_what_is_needed (f := {}) Ex.created (by decide +kernel) Ex.run (draws := []) (id := 5)
  (seq := Ex.ep [1, 1, 1, 1] [0, 0, 0, 0, 0] 0) ⟨by decide +kernel, by decide +kernel, by decide +kernel⟩
  (by decide +kernel) (Prod.ext rfl (by decide +kernel)) (rows := [1, 1, 1, 1]) (by decide +kernel)
example := C02_add_succeeds (f := {}) Ex.created (by decide +kernel) Ex.run [] 5
  (Ex.ep [1, 1, 1, 1] [0, 0, 0, 0, 0] 0) ⟨by decide +kernel, by decide +kernel, by decide +kernel⟩
  (by decide +kernel) (rows := [1, 1, 1, 1]) (by decide +kernel) (by decide +kernel)

/-! ## C03 -/

/-- C03: whatever is stored under an identity is exactly what the latest add of that identity gave,
in every column. -/
theorem C03_stored_as_given {columns : List Column} {maxlen : Int} {lk : String}
    {t0 t : Table V} {ops : List (Op V)} (hc : Created columns maxlen lk t0) (hr : Run t0 ops t)
    {name : String} {d : Dict Int (List V)} (hd : t.stored name = some d) {id : Int} {rows : List V}
    (hm : d.get? id = some rows) :
    ∃ e, lastAdd (acts lk ops) id = some e ∧ e.rows name = rows := by
  obtain ⟨q, h⟩ := run_hist hc hr
  have := Dict.mem_of_get? hm
  rw [h.inv.stored_eq hd] at this
  obtain ⟨e, he, heq⟩ := List.mem_map.1 this
  injection heq with h1 h2
  subst h1
  exact ⟨e, h.last e he, h2⟩

/-- C03: nothing that happens to other sequences changes a stored one. -/
theorem C03_unchanged_while_stored {columns : List Column} {maxlen : Int} {lk : String}
    {t0 t t' : Table V} {ops ops' : List (Op V)} (hc : Created columns maxlen lk t0)
    (hr : Run t0 ops t) (hr' : Run t0 (ops ++ ops') t') {id : Int}
    (hother : ∀ id' seq draws, Op.add id' seq draws ∈ ops' → Table.wrapId id' ≠ id)
    {name : String} {d d' : Dict Int (List V)} (hd : t.stored name = some d)
    (hd' : t'.stored name = some d') {rows rows' : List V} (hm : d.get? id = some rows)
    (hm' : d'.get? id = some rows') : rows' = rows := by
  obtain ⟨e, h1, h2⟩ := C03_stored_as_given hc hr hd hm
  obtain ⟨e', h1', h2'⟩ := C03_stored_as_given hc hr' hd' hm'
  have : lastAdd (acts lk (ops ++ ops')) id = lastAdd (acts lk ops) id := by
    clear hr' hd' h1' hm'
    induction ops' using snocInduction with
    | nil => simp
    | snoc ops' op ih =>
      rw [← List.append_assoc, acts_append]
      have ih := ih (fun id' seq draws hm => hother id' seq draws (List.mem_append_left _ hm))
      cases op with
      | add id' seq draws =>
        rw [toAct_add, lastAdd_add, if_neg, ih]
        exact hother id' seq draws (by simp)
      | resize n =>
        exact (lastAdd_resize _ n id).trans ih
      | sample count n c r junk =>
        have : (Op.toAct lk (Op.sample count n c r junk)).toList = ([] : List (Act V)) := rfl
        rw [this, List.append_nil, ih]
  rw [this, h1] at h1'
  injection h1' with h1'
  subst h1'
  rw [← h2, ← h2']

example : (lastAdd (acts "actions" Ex.ops) 8).map (fun e => e.rows "obs") = some [4, 5, 6, 7] := by
  decide +kernel
example := C03_stored_as_given Ex.created Ex.run (name := "obs")
  (d := [(8, [4, 5, 6, 7]), (9, [8, 9, 10])]) (by decide +kernel) (id := 8) (rows := [4, 5, 6, 7])
  (by decide +kernel)

/-! ## C05 -/

/-- C05: `full()` tells whether an add has ever not fitted the capacity of its time (for a memory
that never drops anything). -/
theorem C05_full_iff {columns : List Column} {maxlen : Int} {lk : String}
    {t0 t : Table V} {ops : List (Op V)} (hc : Created columns maxlen lk t0) (hr : Run t0 ops t) :
    t.full = everFull maxlen (acts lk ops) := by
  obtain ⟨q, h⟩ := run_hist hc hr
  exact h.full

/-- C05: while `full()` is false everything added is stored. -/
theorem C05_not_full_keeps_all {columns : List Column} {maxlen : Int} {lk : String}
    {t0 t : Table V} {ops : List (Op V)} (hc : Created columns maxlen lk t0) (hr : Run t0 ops t)
    (hf : t.full = false) {name : String} {d : Dict Int (List V)} (hd : t.stored name = some d) :
    d = (added (acts lk ops)).map fun e => (e.id, e.rows name) := by
  obtain ⟨q, h⟩ := run_hist hc hr
  rw [h.inv.stored_eq hd, h.notFull hf]

/-- C05: once true, it stays true. -/
theorem C05_full_stays {columns : List Column} {maxlen : Int} {lk : String}
    {t0 t t' : Table V} {ops ops' : List (Op V)} (hc : Created columns maxlen lk t0)
    (hr : Run t0 ops t) (hr' : Run t0 (ops ++ ops') t') (hf : t.full = true) : t'.full = true := by
  rw [C05_full_iff hc hr] at hf
  rw [C05_full_iff hc hr']
  clear hr'
  induction ops' using snocInduction with
  | nil => simpa using hf
  | snoc ops' op ih =>
    rw [← List.append_assoc, acts_append]
    cases op with
    | add id seq draws => rw [toAct_add, everFull_add, ih]; rfl
    | resize n => exact (everFull_resize _ _ n).trans ih
    | sample count n c r junk =>
      have : (Op.toAct lk (Op.sample count n c r junk)).toList = ([] : List (Act V)) := rfl
      rw [this, List.append_nil, ih]

/-- C05: `clear()` resets it. -/
theorem C05_clear_resets (t : Table V) : t.clear.1.full = false := by
  unfold Table.clear
  simp only
  split <;> rfl

example : Ex.t2.full = false ∧ Ex.t3.full = true := by decide +kernel

/-! ## C06 -/

/-- C06: shrinking is refused and changes nothing; anything else succeeds, sets the capacity and
changes nothing else. -/
theorem C06_resize (t : Table V) (n : Int) :
    (n < t.maxlen → t.resize n = (t, .error .valueError)) ∧
    (t.maxlen ≤ n → ∃ t', t.resize n = (t', .ok ()) ∧ t'.maxlen = n ∧ t'.size = t.size ∧
      t'.full = t.full ∧ (∀ name, t'.stored name = t.stored name) ∧ t'.lengths = t.lengths ∧
      t'.sampler = t.sampler ∧ t'.ejector = t.ejector ∧ t'.columns = t.columns) := by
  constructor
  · intro h; simp [Table.resize, h]
  · intro h
    refine ⟨{ t with maxlen := n }, ?_, rfl, rfl, rfl, fun _ => rfl, rfl, rfl, rfl, rfl⟩
    simp only [Table.resize, if_neg (Int.not_lt.2 h)]

/-- C06: the new capacity bounds the memory from then on, until the next resize. -/
theorem C06_new_bound {columns : List Column} {maxlen : Int} {lk : String}
    {t0 t : Table V} {ops ops' : List (Op V)} {n : Int} (hc : Created columns maxlen lk t0)
    (hr : Run t0 (ops ++ .resize n :: ops') t) (hno : ∀ m, Op.resize m ∉ ops') :
    t.maxlen = n ∧ t.size ≤ n := by
  obtain ⟨h1, h2, h3⟩ := C01_size_le_capacity hc hr
  have : (queueAfter maxlen (acts lk (ops ++ .resize n :: ops'))).1 = n := by
    clear hr h3
    induction ops' using snocInduction with
    | nil =>
      rw [acts_append]
      exact congrArg Prod.fst (queueAfter_resize maxlen n (acts lk ops))
    | snoc ops' op ih =>
      have ih := ih (fun m hm => hno m (List.mem_append_left _ hm))
      rw [← List.cons_append, ← List.append_assoc, acts_append]
      cases op with
      | add id seq draws => rw [toAct_add, queueAfter_add]; exact ih
      | resize m => exact absurd (by simp) (hno m)
      | sample count n c r junk =>
        have : (Op.toAct lk (Op.sample count n c r junk)).toList = ([] : List (Act V)) := rfl
        rw [this, List.append_nil]; exact ih
  omega

example : (Ex.t3.resize 4).2 = .error .valueError ∧ (Ex.t3.resize 9).1.maxlen = 9 := by decide +kernel
example : Run Ex.t0 (Ex.ops ++ [.resize 9]) (Ex.t3.resize 9).1 :=
  Run.resize Ex.run (Prod.ext rfl (by decide +kernel))

/-! ## C07: false for the code -/

/-- C07 does not hold: a rejected add turns `full()` on although nothing was ever dropped. -/
theorem C07_false : ∃ (t t' : Table Nat) (ops : List (Op Nat)) (id : Int) (seq : Seqn Nat) (e : Err),
    Created Ex.cols 5 "actions" Ex.t0 ∧ Run Ex.t0 ops t ∧ SeqOk t seq ∧
    Table.wrapId id ∉ t.lengths.keys ∧
    Table.addSequence [] id seq t = (t', .error e) ∧ t.full = false ∧ t'.full = true := by
  refine ⟨Ex.t1, (Table.addSequence [] 3 (Ex.ep [0, 0, 0, 0, 0, 0] [0, 0, 0, 0, 0, 0, 0] 0) Ex.t1).1,
    [.add 7 (Ex.ep [10, 11] [1, 2, 3] 0) []], 3,
    Ex.ep [0, 0, 0, 0, 0, 0] [0, 0, 0, 0, 0, 0, 0] 0, .indexError, Ex.created, ?_, ?_, ?_,
    Prod.ext rfl ?_, ?_, ?_⟩
  · exact Run.step (ops := []) Run.nil _ _ _
      ⟨by decide +kernel, by decide +kernel, by decide +kernel⟩ (by decide +kernel) (by decide +kernel)
  · exact ⟨by decide +kernel, by decide +kernel, by decide +kernel⟩
  all_goals decide +kernel

/-- C07, what does hold: adding a sequence longer than the capacity never returns normally, and the
contents, the sizes, the capacity and the sampler are untouched. (Missing for the full claim: `full()`
becomes true, and a random ejector may also have refreshed its cached weights. With a random ejector
the call does not return at all: `diverges` for every finite list of draws.) -/
theorem C07_oversize_add_keeps_contents_partial {columns : List Column} {maxlen : Int} {lk : String}
    {t0 t : Table V} {ops : List (Op V)} (hc : Created columns maxlen lk t0) (hr : Run t0 ops t)
    (draws : List Nat) (id : Int) (seq : Seqn V) {rows : List V}
    (hrows : seq.get? lk = some rows) (hlen : t.maxlen < (rows.length : Int)) :
    ∃ t' e, Table.addSequence draws id seq t = (t', .error e) ∧
      (e = .indexError ∨ e = .diverges ∨ e = .valueError ∨ e = .overflowError) ∧
      (∀ name, t'.stored name = t.stored name) ∧ t'.size = t.size ∧ t'.lengths = t.lengths ∧
      t'.maxlen = t.maxlen ∧ t'.sampler = t.sampler ∧ t'.full = true := by
  obtain ⟨q, h⟩ := run_hist hc hr
  have htot := h.inv.total
  have hgt : t.total + rows.length > t.maxlen := by omega
  unfold Table.addSequence
  rw [h.key, hrows]
  simp only [if_pos hgt, ejectCount_eq]
  cases he : t.ejector.eject (t.total + rows.length - t.maxlen) draws with
  | mk s x =>
    cases x with
    | ok ids =>
      exfalso
      obtain ⟨_, _, _, _, _, h5, h6⟩ := ejectCount_ok h.inv he
      have := h5.enough
      omega
    | error e =>
      refine ⟨_, e, rfl, ?_, fun _ => rfl, rfl, rfl, rfl, rfl, rfl⟩
      rcases Strategy.eject_err (by simpa using h.inv.nodup) h.inv.ejector he with h1 | h1 | h1 | h1
      · exact Or.inl h1.1
      · exact Or.inr (Or.inl h1)
      · exact Or.inr (Or.inr (Or.inl h1.1))
      · exact Or.inr (Or.inr (Or.inr h1))

/-! ## C08: false for the code -/

/-- C08 does not hold with a FIFO strategy: adding a stored identity again raises, but the old
sequence has been overwritten and `size()` no longer is the stored total. -/
theorem C08_false : ∃ (t' : Table Nat) (d : Dict Int (List Nat)),
    Run Ex.t0 (Ex.ops.take 1) Ex.t1 ∧
    SeqOk Ex.t1 (Ex.ep [77] [78, 79] 1) ∧ 7 ∈ Ex.t1.lengths.keys ∧
    Table.addSequence [] 7 (Ex.ep [77] [78, 79] 1) Ex.t1 = (t', .error .assertionError) ∧
    t'.stored "actions" = some d ∧ d.get? 7 = some [77] ∧
    t'.size ≠ ((d.values.map List.length).sum : Nat) := by
  refine ⟨(Table.addSequence [] 7 (Ex.ep [77] [78, 79] 1) Ex.t1).1, [(7, [77])], ?_,
    ⟨by decide +kernel, by decide +kernel, by decide +kernel⟩, ?_, Prod.ext rfl ?_, ?_, ?_, ?_⟩
  · exact Run.step (ops := []) Run.nil _ _ _
      ⟨by decide +kernel, by decide +kernel, by decide +kernel⟩ (by decide +kernel) (by decide +kernel)
  all_goals decide +kernel

/-- C08 does not hold with random strategies either: the call succeeds, but `size()` counts the
replaced sequence for ever. -/
theorem C08_false_uniform : ∃ (t0 t1 t2 : Table Nat) (d : Dict Int (List Nat)),
    Created Ex.cols 5 "actions" t0 ∧ Run t0 (Ex.ops.take 1) t1 ∧
    Table.addSequence [] 7 (Ex.ep [77] [78, 79] 1) t1 = (t2, .ok ()) ∧
    t2.stored "actions" = some d ∧ t2.size = 3 ∧ ((d.values.map List.length).sum : Nat) = 1 := by
  refine ⟨(Table.new Ex.cols 5 (.uniform {}) (.uniform {}) "actions").1, _, _, [(7, [77])],
    ⟨by decide, _, _, .uniform, .uniform, Prod.ext rfl (by decide +kernel)⟩,
    Run.step (ops := []) Run.nil [] 7 (Ex.ep [10, 11] [1, 2, 3] 0)
      ⟨by decide +kernel, by decide +kernel, by decide +kernel⟩ (by decide +kernel) (by decide +kernel),
    Prod.ext rfl ?_, ?_, ?_, ?_⟩
  all_goals decide +kernel

end Verif.Props
