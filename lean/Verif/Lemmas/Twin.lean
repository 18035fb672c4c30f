import Verif.Lemmas.Serialize
import Verif.Lemmas.Agree

set_option linter.unusedSimpArgs false

namespace Verif

open Dict Spec

variable {V : Type u}

/-! ## Clearing and restoring -/

theorem clear_data {t : Table V} {q : List (Entry V)} (h : Inv t q) {x : Dict String (Store V)}
    (hx : Table.buildStores t.columns [] = .ok x) :
    ∃ t', t.clear = (t', .ok ()) ∧ InvData t' [] ∧ t'.columns = t.columns ∧ t'.lengthKey = t.lengthKey ∧
      t'.maxlen = t.maxlen ∧ t'.filled = false ∧ t'.sampler = t.sampler ∧ t'.ejector = t.ejector ∧
      physNames t'.data = physNames t.data := by
  have hcn : t.columns.keys.Nodup := by rw [h.keys_eq]; exact h.names
  have hd := buildStores_ok (by simpa using hcn) hx
  simp only [List.nil_append] at hd
  refine ⟨{ t with data := x, lengths := [], total := 0, filled := false, temp := [] }, ?_, ?_, rfl, rfl, rfl, rfl,
    rfl, rfl, ?_⟩
  · unfold Table.clear; simp only [hx]
  · subst hd
    refine ⟨by simp, rfl, by simp, ?_, ?_, ?_, ghost_tracks _, ghost_tracks _⟩
    · simp only [List.map_map]
      conv => rhs; rw [← List.map_id t.columns]
      apply List.map_congr_left
      rintro ⟨n, k⟩ _
      cases k <;> simp [ColKind.empty, Store.kind]
    · simpa [keys, Function.comp_def] using hcn
    · intro name s hm
      simp only [List.mem_map] at hm
      obtain ⟨⟨n, k⟩, _, heq⟩ := hm
      injection heq with h1 h2; subst h1 h2
      cases k <;> simp [ColKind.empty, StoreOk]
  · simp only
    rw [hd, ← h.shape]
    unfold physNames
    simp only [List.map_map, List.filterMap_map]
    congr 1; funext ⟨n, s⟩; cases s <;> rfl

theorem hist_buildable {columns : List Column} {maxlen : Int} {lk : String} {t0 : Table V}
    (hc : Created columns maxlen lk t0) :
    ∃ x, Table.buildStores (V := V) (Dict.ofPairs (columns.map fun c => (c.name, c.kind))) [] = .ok x := by
  obtain ⟨_, s, e, _, _, hnew⟩ := hc
  unfold Table.new Table.clear at hnew
  simp only at hnew
  split at hnew
  · simp at hnew
  · rename_i data hd; exact ⟨data, hd⟩

/-- The strategy of the restoring table after loading the saved state. -/
theorem load_importing {s s1 : Strategy} {l : Dict Int Nat} (hn : l.keys.Nodup) (h : s.Tracks l)
    (hk : s1.kind = s.kind) (h1 : s1.kind = 0 ∨ s1.Tracks []) :
    (Table.loadOpt (s1.setImport true) s.state).Importing [] l ∧
    (Table.loadOpt (s1.setImport true) s.state).options = s1.options := by
  cases s with
  | fifo s =>
    cases s1 with
    | fifo s1 =>
      obtain ⟨h2, h3, _⟩ := h
      refine ⟨⟨h2, ?_, rfl⟩, rfl⟩
      show Dict.ofPairs s.lens = l
      rw [h3]; exact ofPairs_of_nodup hn
    | uniform s1 => simp [Strategy.kind] at hk
    | coverage s1 => simp [Strategy.kind] at hk
  | uniform s =>
    cases s1 with
    | uniform s1 =>
      rcases h1 with h1 | h1
      · simp [Strategy.kind] at h1
      · exact ⟨h1, rfl⟩
    | fifo s1 => simp [Strategy.kind] at hk
    | coverage s1 => simp [Strategy.kind] at hk
  | coverage s =>
    cases s1 with
    | coverage s1 =>
      rcases h1 with h1 | h1
      · simp [Strategy.kind] at h1
      · exact ⟨h1, rfl⟩
    | fifo s1 => simp [Strategy.kind] at hk
    | uniform s1 => simp [Strategy.kind] at hk

theorem options_setImport (s : Strategy) (b : Bool) : (s.setImport b).options = s.options := by
  cases s <;> rfl

theorem kind_of_options {s s' : Strategy} (h : s.options = s'.options) : s.kind = s'.kind := by
  cases s <;> cases s' <;> simp [Strategy.options, Strategy.kind] at h ⊢

/-- Every stored column has at least one row. -/
def NoEmptyColumn (t : Table V) : Prop :=
  ∀ name d, t.stored name = some d → (d.map Prod.snd).flatten ≠ []

theorem serialize_ok {t : Table V} {q : List (Entry V)} (h : Inv t q) (hne : NoEmptyColumn t)
    (hids : ∀ id ∈ t.lengths.keys, 0 ≤ id ∧ id < 2^63) :
    t.serialize = .ok
      { ids := q.map Entry.id, ejectorState := t.ejector.state, samplerState := t.sampler.state,
        columns := t.columns,
        ranges := (physNames t.data).map fun n => (n, Table.rangesFrom 0 (q.map fun e => (e.id, e.rows n))),
        rows := (physNames t.data).map fun n => (n, (q.map fun e => e.rows n).flatten) } := by
  have hc := collect_ok h.stores (by
      intro n hn
      obtain ⟨s, hm, hk⟩ := mem_physNames.1 hn
      have hst := h.stores n s hm
      have hg := get?_of_mem h.names hm
      have : t.stored n = some (q.map fun e => (e.id, e.rows n)) := by
        cases s with
        | plain d => simp only [StoreOk] at hst; simp [Table.stored, hg, hst]
        | tag d => simp only [StoreOk] at hst; simp [Table.stored, hg, hst]
        | virt k tgt => simp [Store.kind] at hk
      have := hne n _ this
      simpa [Function.comp_def] using this)
    (by
      intro e he
      have := hids e.id (by rw [h.lengths]; simpa using ⟨e, he, rfl⟩)
      simp only [fitsInt64, Bool.and_eq_true, decide_eq_true_eq]
      omega)
  unfold Table.serialize
  rw [hc]
  simp only [h.lengths, keys_lensOf]

/-- Restoring, in general. -/
theorem restore_ok {t t1 : Table V} {q q1 : List (Entry V)} (h : Inv t q) (h1 : Inv t1 q1)
    (hcols : t1.columns = t.columns) (hkey : t1.lengthKey = t.lengthKey)
    {x : Dict String (Store V)} (hx : Table.buildStores t1.columns [] = .ok x)
    (hlk : t.lengthKey ∈ physNames t.data) (hlen : ∀ e ∈ q, e.len = (e.rows t.lengthKey).length)
    (hcap : (total q : Int) ≤ t1.maxlen) (hids : ∀ id ∈ t.lengths.keys, 0 ≤ id ∧ id < 2^63)
    (hks : t1.sampler.kind = t.sampler.kind) (hke : t1.ejector.kind = t.ejector.kind)
    (hs : t1.sampler.kind = 0 ∨ t1.sampler.Tracks []) (he : t1.ejector.kind = 0 ∨ t1.ejector.Tracks [])
    {a : Archive V} (ha : t.serialize = .ok a) (hne : NoEmptyColumn t) (draws : List Nat) :
    ∃ t2, Table.deserialize a draws t1 = (t2, .ok ()) ∧ Inv t2 q ∧ t2.columns = t.columns ∧
      t2.lengthKey = t.lengthKey ∧ t2.maxlen = t1.maxlen ∧ t2.filled = false ∧
      t2.sampler.options = t1.sampler.options ∧ t2.ejector.options = t1.ejector.options := by
  have hser := serialize_ok h hne hids
  rw [ha] at hser
  injection hser with hser
  obtain ⟨tc, c1, c2, c3, c4, c5, c6, c7, c8, c9⟩ := clear_data h1 hx
  have hn : (lensOf q).keys.Nodup := by simpa using h.nodup
  obtain ⟨ls1, ls2⟩ := load_importing hn h.sampler hks hs
  obtain ⟨le1, le2⟩ := load_importing hn h.ejector hke he
  have hcn : t.columns.keys.Nodup := by rw [h.keys_eq]; exact h.names
  have hphys : physNames t1.data = physNames t.data := by
    have key : ∀ d : Dict String (Store V), physNames d =
        (d.map fun p => (p.1, p.2.kind)).filterMap fun p => match p.2 with
          | .plain => some p.1 | .tag => some p.1 | .virt _ _ => none := by
      intro d
      unfold physNames
      rw [List.filterMap_map]
      congr 1; funext ⟨n, s⟩; cases s <;> rfl
    rw [key, key, h1.shape, h.shape, hcols]
  let t0 : Table V := { tc with
    ejector := Table.loadOpt (t1.ejector.setImport true) t.ejector.state
    sampler := Table.loadOpt (t1.sampler.setImport true) t.sampler.state
    columns := t.columns }
  have ht0 : InvData t0 [] :=
    ⟨c2.nodup, c2.lengths, c2.total, by have := c2.shape; rw [show t0.columns = tc.columns from (c3.trans hcols).symm]; exact this,
      c2.names, c2.stores, ghost_tracks _, ghost_tracks _⟩
  have hmemphys : ∀ n, n ∈ physNames t.data → n ∈ t.columns.keys := by
    intro n hn
    rw [h.keys_eq]
    exact (physNames_sublist t.data).subset hn
  obtain ⟨t2, i1, i2, i3, i4, i5, i6, i7, i8, i9, i10⟩ := importLoop_ok (a := a) (draws := draws)
    (names := physNames t.data) (q := q) h.nodup
    (fun e he => (hids e.id (by rw [h.lengths]; simpa using ⟨e, he, rfl⟩)).1)
    (by rw [hser]) (by rw [hser]) ((physNames_sublist t.data).nodup h.names) hlk hlen
    (full := lensOf q) q [] rfl (t := t0) hmemphys
    (by
      intro p hp hk
      have hp : p ∈ t.columns := hp
      rw [← h.shape] at hp
      obtain ⟨⟨n, s⟩, hm, rfl⟩ := List.mem_map.1 hp
      exact mem_physNames.2 ⟨s, hm, hk⟩)
    (show tc.lengthKey = t.lengthKey by rw [c4, hkey])
    (show (total q : Int) ≤ tc.maxlen by rw [c5]; exact hcap)
    ht0 ls1 le1
  have i2' : InvData t2 q := by
    apply i2.unrestrict
    intro n hn
    obtain ⟨s, hm, hk⟩ := mem_physNames.1 hn
    have : (n, s.kind) ∈ t2.columns := by
      have := i2.shape
      have := this ▸ (List.mem_map.2 ⟨(n, s), hm, rfl⟩ : (n, s.kind) ∈ t2.data.map fun (p : String × Store V) => (p.1, p.2.kind))
      exact this
    rw [i5] at this
    have this : (n, s.kind) ∈ t.columns := this
    rw [← h.shape] at this
    obtain ⟨⟨m, s'⟩, hm', heq⟩ := List.mem_map.1 this
    simp only [Prod.mk.injEq] at heq
    obtain ⟨rfl, hk'⟩ := heq
    exact mem_physNames.2 ⟨s', hm', hk' ▸ hk⟩
  refine ⟨{ t2 with sampler := t2.sampler.setImport false, ejector := t2.ejector.setImport false }, ?_, ?_,
    i5, ?_, ?_, ?_, ?_, ?_⟩
  · unfold Table.deserialize
    rw [c1, Res.andThen_ok]
    have hids' : a.ids = q.map Entry.id := by rw [hser]
    have hst : a.ejectorState = t.ejector.state := by rw [hser]
    have hss : a.samplerState = t.sampler.state := by rw [hser]
    have hac : a.columns = t.columns := by rw [hser]
    simp only [hids', hst, hss, hac, c3, c7, c8, hcols]
    rw [loadColumns_self t.columns t.columns hcn (fun p hp => hp)]
    rw [show ({ tc with
      ejector := Table.loadOpt (t1.ejector.setImport true) t.ejector.state
      sampler := Table.loadOpt (t1.sampler.setImport true) t.sampler.state
      columns := t.columns } : Table V) = t0 from rfl, i1, Res.andThen_ok]
  · exact ⟨i2'.nodup, i2'.lengths, i2'.total, i2'.shape, i2'.names, i2'.stores,
      Strategy.importing_done i3, Strategy.importing_done i4⟩
  · show t2.lengthKey = _
    rw [i6]; show tc.lengthKey = _; rw [c4, hkey]
  · show t2.maxlen = _
    rw [i7]; exact c5
  · show t2.filled = _
    rw [i8]; exact c6
  · simp only [options_setImport, i9]; exact ls2
  · simp only [options_setImport, i10]; exact le2

/-! ## Two tables with the same contents behave alike -/

/-- Two tables with the same contents and configuration. -/
structure Twin (t t2 : Table V) (q : List (Entry V)) : Prop where
  left : Inv t q
  right : Inv t2 q
  columns : t2.columns = t.columns
  lengthKey : t2.lengthKey = t.lengthKey
  maxlen : t2.maxlen = t.maxlen
  ejector : t2.ejector.kind = t.ejector.kind
  fits : ∀ e ∈ q, fitsInt64 e.id = true

theorem Twin.symm {t t2 : Table V} {q : List (Entry V)} (h : Twin t t2 q) : Twin t2 t q :=
  ⟨h.right, h.left, h.columns.symm, h.lengthKey.symm, h.maxlen.symm, h.ejector.symm, h.fits⟩

theorem Uniform.refresh_fits {s : Uniform} {l : Dict Int Nat} (h : (Strategy.uniform s).Tracks l)
    (hf : l.keys.all fitsInt64 = true) : ∃ s', s.refresh = (s', .ok ()) := by
  unfold refresh
  split
  · unfold rebalance
    simp only [h.1, hf, if_true]
    exact ⟨_, rfl⟩
  · exact ⟨s, rfl⟩

theorem Coverage.refresh_fits {s : Coverage} {l : Dict Int Nat} (h : (Strategy.coverage s).Tracks l)
    (hf : l.keys.all fitsInt64 = true) : ∃ s', s.refresh = (s', .ok ()) := by
  cases hr : s.refresh with
  | mk s' x =>
    cases x with
    | ok u => exact ⟨s', rfl⟩
    | error e =>
      have := Strategy.refresh_coverage_err h hr
      subst this
      exfalso
      unfold refresh at hr
      split at hr
      · unfold rebalance at hr
        simp only [h.1, hf, if_true] at hr
        split at hr <;> simp at hr
      · simp at hr

/-- The answer to an ejection request only depends on the tracked sequences. -/
theorem Strategy.eject_same {s s2 : Strategy} {l : Dict Int Nat} (h : s.Tracks l) (h2 : s2.Tracks l)
    (hk : s2.kind = s.kind) (hf : l.keys.all fitsInt64 = true) (count : Int) (draws : List Nat) :
    (s2.eject count draws).2 = (s.eject count draws).2 := by
  cases s with
  | fifo s =>
    cases s2 with
    | fifo s2 => simp only [eject, Fifo.eject, h.1, h.2.1, h2.1, h2.2.1]
    | _ => simp [kind] at hk
  | uniform s =>
    cases s2 with
    | uniform s2 =>
      obtain ⟨a, ha⟩ := Uniform.refresh_fits h hf
      obtain ⟨b, hb⟩ := Uniform.refresh_fits h2 hf
      obtain ⟨_, a1, a2, a3⟩ := refresh_uniform h ha
      obtain ⟨_, b1, b2, b3⟩ := refresh_uniform h2 hb
      simp only [eject, Uniform.eject, Res.lift, ha, hb, Res.andThen_ok, a1, a2, a3, b1, b2, b3]
    | _ => simp [kind] at hk
  | coverage s =>
    cases s2 with
    | coverage s2 =>
      obtain ⟨a, ha⟩ := Coverage.refresh_fits h hf
      obtain ⟨b, hb⟩ := Coverage.refresh_fits h2 hf
      obtain ⟨_, a1, a2, a3, _⟩ := refresh_coverage h ha
      obtain ⟨_, b1, b2, b3, _⟩ := refresh_coverage h2 hb
      simp only [eject, Coverage.eject, Res.lift, ha, hb, Res.andThen_ok, a1, a2, a3, b1, b2, b3]
    | _ => simp [kind] at hk

theorem Twin.allFits {t t2 : Table V} {q : List (Entry V)} (h : Twin t t2 q) :
    (lensOf q).keys.all fitsInt64 = true := by
  rw [keys_lensOf, List.all_map, List.all_eq_true]
  intro e he; exact h.fits e he

theorem Twin.add {t t' t2 : Table V} {q : List (Entry V)} (h : Twin t t2 q) {seq : Seqn V} (hs : SeqOk t seq)
    {id : Int} (hid : Table.wrapId id ∉ q.map Entry.id) (hfit : fitsInt64 (Table.wrapId id) = true)
    {draws : List Nat} (ha : Table.addSequence draws id seq t = (t', .ok ())) :
    ∃ t2' q', Table.addSequence draws id seq t2 = (t2', .ok ()) ∧ Twin t' t2' q' := by
  obtain ⟨ids, hids⟩ := add_ok h.left hs hid ha
  have hl : ∃ rows, seq.get? t.lengthKey = some rows := by
    cases hl : seq.get? t.lengthKey with
    | none => unfold Table.addSequence at ha; rw [hl] at ha; simp at ha
    | some rows => exact ⟨rows, rfl⟩
  obtain ⟨rows, hl⟩ := hl
  have hs2 : SeqOk t2 seq := ⟨hs.names, by rw [h.columns]; exact hs.known, by rw [h.columns]; exact hs.complete⟩
  have hrows : rowsOf seq t.lengthKey = rows := by simp [rowsOf, hl]
  have htot : t2.total = t.total := by rw [h.left.total, h.right.total]
  have hej := Strategy.eject_same h.left.ejector h.right.ejector h.ejector h.allFits
  obtain ⟨t2', ha2⟩ := add_succeeds (draws := draws) h.right hs2 hid (by rw [h.lengthKey]; exact hl) (by
    intro hbig
    rcases hids.made with ⟨h1, _, _⟩ | ⟨_, _, ⟨s, h3⟩, _⟩
    · simp only [entryOf, hrows] at h1
      rw [htot, h.maxlen, h.left.total] at hbig
      omega
    · have := hej ((total q : Int) + (rows.length : Nat) - t.maxlen) draws
      simp only [entryOf, hrows] at h3
      rw [h3] at this
      rw [htot, h.maxlen, h.left.total]
      exact ⟨(t2.ejector.eject ((total q : Int) + (rows.length : Nat) - t.maxlen) draws).1, ids,
        Prod.ext rfl this⟩)
  obtain ⟨ids2, hids2⟩ := add_ok h.right hs2 hid ha2
  have hsame : ids2 = ids := by
    rcases hids.made with ⟨h1, h2, _⟩ | ⟨h1, _, ⟨s, h3⟩, _⟩ <;>
      rcases hids2.made with ⟨k1, k2, _⟩ | ⟨k1, _, ⟨s', k3⟩, _⟩
    · rw [h2, k2]
    · rw [h.maxlen, h.lengthKey] at k1; omega
    · rw [h.maxlen, h.lengthKey] at k1; omega
    · rw [h.maxlen, h.lengthKey] at k3
      have := hej ((total q : Int) + (entryOf (Table.wrapId id) (rowsOf seq t.lengthKey).length seq).len
        - t.maxlen) draws
      rw [h3, k3] at this
      simpa using this
  subst hsame
  refine ⟨t2', _, ha2, hids.inv, by have := hids2.inv; rw [h.lengthKey] at this; exact this, ?_, ?_, ?_, ?_, ?_⟩
  · rw [hids.config.columns, hids2.config.columns, h.columns]
  · rw [hids.config.lengthKey, hids2.config.lengthKey, h.lengthKey]
  · rw [hids.config.maxlen, hids2.config.maxlen, h.maxlen]
  · rw [hids.config.ejectorKind, hids2.config.ejectorKind, h.ejector]
  · intro e he
    rcases List.mem_append.1 he with he | he
    · exact h.fits e (List.mem_filter.1 he).1
    · simp only [List.mem_singleton] at he; subst he; exact hfit

/-! ## Sampling does not overflow if the identities fit -/

theorem read_no_overflow (data : Dict String (Store V)) (s : Store V) (p : SamplePoint) :
    Table.read data s p ≠ .error .overflowError := by
  obtain ⟨id, a, b⟩ := p
  have htgt : ∀ n, Table.target data n id ≠ .error .overflowError := by
    intro n; unfold Table.target; split
    · split <;> simp
    · simp
  cases s with
  | plain d => simp only [Table.read]; split <;> simp
  | tag d => simp only [Table.read]; split <;> simp
  | virt k tgt =>
    have := htgt tgt
    cases k <;> simp only [Table.read, bind, Except.bind] <;>
      (split
       · rename_i e he; rw [he] at this; simpa using this
       · first
         | (split <;> simp; done)
         | simp)

theorem gatherStore_no_overflow {data : Dict String (Store V)} {s : Store V} {len : Nat}
    (pts : List SamplePoint) (idx : Nat) (out : List (Cell V)) :
    (Table.gatherStore data s len pts idx out).2 ≠ .error .overflowError := by
  have hd : ∀ id, Table.diagnostic data id ≠ .overflowError := by
    intro id; unfold Table.diagnostic; split <;> simp
  induction pts generalizing idx out with
  | nil => simp [Table.gatherStore]
  | cons p pts ih =>
    unfold Table.gatherStore
    have hr := read_no_overflow data s p
    split
    · simpa using hd p.1
    · simpa using hd p.1
    · rename_i e _ _ he; rw [he] at hr; simpa using hr
    · split
      · simpa using hd p.1
      · exact ih _ _

theorem gather_no_overflow {count n : Nat} {pts : List SamplePoint} {junk : String → Nat → Cell V}
    (stores : Dict String (Store V)) (t : Table V) :
    (Table.gather count n pts junk stores t).2 ≠ .error .overflowError := by
  induction stores generalizing t with
  | nil => simp [Table.gather]
  | cons x stores ih =>
    obtain ⟨name, s⟩ := x
    unfold Table.gather
    simp only
    split
    · rename_i e he
      have := gatherStore_no_overflow (data := t.data) (s := s) (len := Table.localLen s n) pts 0
        ((Table.workspace (t.temp.get? name) (count * Table.localLen s n) (junk name)).take
          (count * Table.localLen s n))
      rw [he] at this; simpa using this
    · generalize hg : Table.gather count n pts junk stores _ = z
      obtain ⟨t', x⟩ := z
      have := ih { t with
        temp := t.temp.set name
            ((Table.gatherStore t.data s (Table.localLen s n) pts 0
                  (List.take (count * Table.localLen s n)
                    (Table.workspace (t.temp.get? name) (count * Table.localLen s n) (junk name)))).fst ++
              List.drop (count * Table.localLen s n)
                (Table.workspace (t.temp.get? name) (count * Table.localLen s n) (junk name))) }
      rw [hg] at this
      cases x with
      | error e => simpa using this
      | ok o => simp

theorem Strategy.sample_no_overflow {s : Strategy} {l : Dict Int Nat} (h : s.Tracks l)
    (hf : l.keys.all fitsInt64 = true) (hn : l.keys.Nodup) (count n : Nat) (c r : Nat → Nat) :
    (s.sample count n c r).2 ≠ .error .overflowError := by
  intro hs
  cases s with
  | fifo s =>
    obtain ⟨h1, h2, h3⟩ := h
    simp only [sample, Fifo.sample] at hs
    split at hs
    · rcases Fifo.samplePerEpisode_ok (tc := n) (r := r) h1 h2 (left := count) (k := 0) with
        ⟨e, he, hee⟩ | ⟨pts, he, hp⟩
      · rw [he] at hs; grind
      · rw [he] at hs; simp at hs
    · rcases Fifo.sampleSeq_ok (tc := n) (r := r) h1 h2 (by omega) (left := count) (k := 0) (ep := 0)
        (off := 0) (Or.inl rfl) with ⟨e, he, hee⟩ | ⟨pts, he, hp⟩
      · rw [he] at hs; grind
      · rw [he] at hs; simp at hs
  | uniform s =>
    obtain ⟨a, ha⟩ := Uniform.refresh_fits h hf
    obtain ⟨_, h2, h3, h4⟩ := refresh_uniform h ha
    simp only [sample, Uniform.sample, ha, Res.andThen_ok, h2, h3, h4] at hs
    cases hc : Uniform.choices l.keys l.values c count 0 with
    | error e =>
      have := Uniform.choices_err hc
      subst this
      simp [hc, bind, Except.bind, Res.lift] at hs
    | ok ids =>
      obtain ⟨k1, k2⟩ := Uniform.choices_ok hn hc
      obtain ⟨pts, hp⟩ := Uniform.points_total (tc := n) (r := r) (k := 0)
        (fun id hid => (k2 id hid).imp fun _ h => h.1)
      simp [hc, bind, Except.bind, Res.lift, hp] at hs
  | coverage s =>
    obtain ⟨a, ha⟩ := Coverage.refresh_fits h hf
    obtain ⟨⟨_, hcnt, _⟩, h2, h3, h4, _⟩ := refresh_coverage h ha
    simp only [sample, Coverage.sample, ha, Res.andThen_ok, h2, h3, h4] at hs
    cases hc : Uniform.choices l.keys l.values c count 0 with
    | error e =>
      have := Uniform.choices_err hc
      subst this
      simp [hc, bind, Except.bind, Res.lift] at hs
    | ok ids =>
      obtain ⟨k1, k2⟩ := Uniform.choices_ok hn hc
      obtain ⟨pts, hp⟩ := Uniform.points_total (tc := n) (r := r) (k := 0)
        (fun id hid => (k2 id hid).imp fun _ h => h.1)
      have := Coverage.points_eq (l := l) (tc := n) (r := r) (ids := ids) (k := 0)
        (counts := a.counts) (by
          intro id hid
          obtain ⟨w, hw, _⟩ := k2 id hid
          rw [hcnt]; exact mem_keys_of_get? hw)
      rw [hp] at this
      simp [hc, Res.lift, this] at hs

theorem sample_no_overflow {t : Table V} {q : List (Entry V)} (h : Inv t q)
    (hf : ∀ e ∈ q, fitsInt64 e.id = true) (count n : Nat) (c r : Nat → Nat) (junk : String → Nat → Cell V) :
    (Table.sample count n c r junk t).2 ≠ .error .overflowError := by
  have hall : (lensOf q).keys.all fitsInt64 = true := by
    rw [keys_lensOf, List.all_map, List.all_eq_true]
    intro e he; exact hf e he
  have hs := Strategy.sample_no_overflow h.sampler hall (by simpa using h.nodup) count n c r
  unfold Table.sample
  cases hr : t.sampler.sample count n c r with
  | mk s x =>
    rw [hr] at hs
    cases x with
    | error e => simpa [Res.lift] using hs
    | ok pts => simpa [Res.lift] using gather_no_overflow _ _

/-- Identities used by the adds of a history. -/
def OpFits : Op V → Prop
  | .add id _ _ => fitsInt64 (Table.wrapId id) = true
  | _ => True

/-- Every history of one twin is a history of the other, and they stay twins. -/
theorem Twin.run {t t2 : Table V} {q : List (Entry V)} (h : Twin t t2 q) {ops : List (Op V)} {t' : Table V}
    (hr : Run t ops t') (hf : ∀ o ∈ ops, OpFits o) :
    ∃ t2' q', Run t2 ops t2' ∧ Twin t' t2' q' := by
  induction hr with
  | nil => exact ⟨t2, q, .nil, h⟩
  | @add ops t' t'' id seq draws _ hs hid ha ih =>
    obtain ⟨u, q', hu, hw⟩ := ih (fun o ho => hf o (by simp [ho]))
    have hid' : Table.wrapId id ∉ q'.map Entry.id := by
      rw [hw.left.lengths, keys_lensOf] at hid; exact hid
    obtain ⟨u', q'', h1, h2⟩ := hw.add hs hid' (hf (.add id seq draws) (by simp)) ha
    refine ⟨u', q'', .add hu ⟨hs.names, by rw [hw.columns]; exact hs.known, by rw [hw.columns]; exact hs.complete⟩
      ?_ h1, h2⟩
    rw [hw.right.lengths, keys_lensOf]; exact hid'
  | @resize ops t' t'' n _ ha ih =>
    obtain ⟨u, q', hu, hw⟩ := ih (fun o ho => hf o (by simp [ho]))
    unfold Table.resize at ha
    split at ha
    · simp at ha
    · rename_i hn
      injection ha with ha _
      subst ha
      refine ⟨{ u with maxlen := n }, q', .resize hu ?_, ?_⟩
      · unfold Table.resize; rw [if_neg (by rw [hw.maxlen]; exact hn)]
      · exact ⟨⟨hw.left.nodup, hw.left.lengths, hw.left.total, hw.left.shape, hw.left.names, hw.left.stores,
          hw.left.sampler, hw.left.ejector⟩, ⟨hw.right.nodup, hw.right.lengths, hw.right.total, hw.right.shape,
          hw.right.names, hw.right.stores, hw.right.sampler, hw.right.ejector⟩, hw.columns, hw.lengthKey, rfl,
          hw.ejector, hw.fits⟩
  | @sample ops t' t'' count n c r junk x _ hsam hx ih =>
    obtain ⟨u, q', hu, hw⟩ := ih (fun o ho => hf o (by simp [ho]))
    obtain ⟨h1, h2, _, _⟩ := Table.sample_inv hw.left hsam hx
    have hx2 := sample_no_overflow hw.right hw.fits count n c r junk
    generalize hg : Table.sample count n c r junk u = z at hx2
    obtain ⟨u', x'⟩ := z
    obtain ⟨k1, k2, _, _⟩ := Table.sample_inv hw.right hg hx2
    refine ⟨u', q', .sample hu hg hx2, h1, k1, ?_, ?_, ?_, ?_, hw.fits⟩
    · rw [h2.columns, k2.columns, hw.columns]
    · rw [h2.lengthKey, k2.lengthKey, hw.lengthKey]
    · rw [h2.maxlen, k2.maxlen, hw.maxlen]
    · rw [h2.ejectorKind, k2.ejectorKind, hw.ejector]

/-- The stored data are determined by the contents. -/
theorem Twin.data {t t2 : Table V} {q : List (Entry V)} (h : Twin t t2 q) : t2.data = t.data := by
  have key : ∀ (d d2 : Dict String (Store V)),
      (∀ n s, (n, s) ∈ d → StoreOk q n s) → (∀ n s, (n, s) ∈ d2 → StoreOk q n s) →
      d2.map (fun p => (p.1, p.2.kind)) = d.map (fun p => (p.1, p.2.kind)) → d2 = d := by
    intro d
    induction d with
    | nil => intro d2 _ _ h; simpa using h
    | cons x d ih =>
      intro d2 hd hd2 heq
      cases d2 with
      | nil => simp at heq
      | cons y d2 =>
        obtain ⟨n, s⟩ := x
        obtain ⟨n2, s2⟩ := y
        simp only [List.map_cons, List.cons.injEq, Prod.mk.injEq] at heq
        obtain ⟨⟨h1, h2⟩, h3⟩ := heq
        subst h1
        have ih := ih d2 (fun n s hm => hd n s (by simp [hm])) (fun n s hm => hd2 n s (by simp [hm])) h3
        have a := hd n2 s (by simp)
        have b := hd2 n2 s2 (by simp)
        rw [ih]
        cases s <;> cases s2 <;> simp_all [StoreOk, Store.kind]
  exact key _ _ h.left.stores h.right.stores (by rw [h.left.shape, h.right.shape, h.columns])

theorem physNames_columns {t : Table V} {q : List (Entry V)} (h : Inv t q) :
    physNames t.data = t.columns.filterMap fun p => match p.2 with
      | .plain => some p.1 | .tag => some p.1 | .virt _ _ => none := by
  rw [← h.shape]
  unfold physNames
  rw [List.filterMap_map]
  congr 1; funext ⟨n, s⟩; cases s <;> rfl

/-- If storing succeeds then no column is empty and the identities fit. -/
theorem serialize_inv {t : Table V} {q : List (Entry V)} (h : Inv t q) {a : Archive V}
    (ha : t.serialize = .ok a) {lk : String} (hlk : lk ∈ physNames t.data) :
    NoEmptyColumn t ∧ ∀ e ∈ q, fitsInt64 e.id = true := by
  have key : ∀ (d : Dict String (Store V)) x, Table.collect d = .ok x → ∀ n s, (n, s) ∈ d →
      ∀ m, (s = .plain m ∨ s = .tag m) → (m.map Prod.snd).flatten ≠ [] ∧ (m.map Prod.fst).all fitsInt64 = true := by
    intro d
    induction d with
    | nil => simp
    | cons y d ih =>
      obtain ⟨n', s'⟩ := y
      intro x hx n s hm m hs
      have hrest : ∃ x', Table.collect d = .ok x' := by
        cases hc : Table.collect d with
        | ok x' => exact ⟨x', rfl⟩
        | error e =>
          cases s' <;> simp only [Table.collect, hc] at hx
          · split at hx
            · simp at hx
            · split at hx <;> simp [Except.map] at hx
          · split at hx
            · simp at hx
            · split at hx <;> simp [Except.map] at hx
          · simp at hx
      obtain ⟨x', hx'⟩ := hrest
      rcases List.mem_cons.1 hm with hm | hm
      · injection hm with h1 h2
        subst h1 h2
        rcases hs with hs | hs <;> subst hs <;> simp only [Table.collect] at hx <;>
        · split at hx
          · simp at hx
          · rename_i he
            split at hx
            · simp at hx
            · rename_i hfit
              exact ⟨by simpa using he, by simpa using hfit⟩
      · exact ih x' hx' n s hm m hs
  unfold Table.serialize at ha
  split at ha
  · simp at ha
  · rename_i ranges rows hc
    constructor
    · intro name d hst
      simp only [Table.stored] at hst
      split at hst
      · rename_i d' hg
        injection hst with hst; subst hst
        exact (key _ _ hc name _ (Dict.mem_of_get? hg) d' (Or.inl rfl)).1
      · rename_i d' hg
        injection hst with hst; subst hst
        exact (key _ _ hc name _ (Dict.mem_of_get? hg) d' (Or.inr rfl)).1
      · simp at hst
    · obtain ⟨s, hm, hk⟩ := mem_physNames.1 hlk
      have hst := h.stores lk s hm
      intro e he
      have : ∃ d : Dict Int (List V), (s = .plain d ∨ s = .tag d) ∧ d = q.map fun e => (e.id, e.rows lk) := by
        cases s with
        | plain d => exact ⟨d, Or.inl rfl, hst⟩
        | tag d => exact ⟨d, Or.inr rfl, hst⟩
        | virt k tgt => simp [Store.kind] at hk
      obtain ⟨d, hd, hq⟩ := this
      have := (key _ _ hc lk s hm d hd).2
      rw [hq, List.map_map, List.all_map, List.all_eq_true] at this
      exact this e he

end Verif
