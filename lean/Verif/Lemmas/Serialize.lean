import Verif.Model.Serialize
import Verif.Lemmas.History
import Verif.Lemmas.Adaptors

set_option linter.unusedSimpArgs false

namespace Verif

open Dict Spec

variable {V : Type u}

/-! ## Columns of the archive -/

/-- Names of the columns that hold data. -/
def physNames (data : Dict String (Store V)) : List String :=
  data.filterMap fun p => match p.2 with
    | .plain _ => some p.1
    | .tag _ => some p.1
    | .virt _ _ => none

theorem physNames_sublist (data : Dict String (Store V)) : (physNames data).Sublist data.keys := by
  unfold physNames
  induction data with
  | nil => exact List.Sublist.slnil
  | cons p data ih =>
    obtain ⟨n, s⟩ := p
    cases s with
    | plain d => exact List.Sublist.cons_cons n ih
    | tag d => exact List.Sublist.cons_cons n ih
    | virt k tgt => exact List.Sublist.cons n ih

theorem mem_physNames {data : Dict String (Store V)} {n : String} :
    n ∈ physNames data ↔ ∃ s, (n, s) ∈ data ∧ (s.kind = .plain ∨ s.kind = .tag) := by
  unfold physNames
  rw [List.mem_filterMap]
  constructor
  · rintro ⟨⟨m, s⟩, hm, h⟩
    cases s with
    | plain d => simp at h; subst h; exact ⟨_, hm, Or.inl rfl⟩
    | tag d => simp at h; subst h; exact ⟨_, hm, Or.inr rfl⟩
    | virt k tgt => simp at h
  · rintro ⟨s, hm, h⟩
    refine ⟨(n, s), hm, ?_⟩
    cases s with
    | plain d => rfl
    | tag d => rfl
    | virt k tgt => simp [Store.kind] at h

theorem collect_ok {data : Dict String (Store V)} {q : List (Entry V)}
    (hs : ∀ name s, (name, s) ∈ data → StoreOk q name s)
    (hne : ∀ n ∈ physNames data, (q.map fun e => e.rows n).flatten ≠ [])
    (hfit : ∀ e ∈ q, fitsInt64 e.id = true) :
    Table.collect data = .ok
      ((physNames data).map fun n => (n, Table.rangesFrom 0 (q.map fun e => (e.id, e.rows n))),
       (physNames data).map fun n => (n, (q.map fun e => e.rows n).flatten)) := by
  have hall : (List.map Prod.fst (q.map fun e => (e.id, e.rows ""))).all fitsInt64 = true := by
    simp only [List.map_map, List.all_map, List.all_eq_true]
    intro e he; exact hfit e he
  have hall' : ∀ n : String, (List.map Prod.fst (q.map fun e => (e.id, e.rows n))).all fitsInt64 = true := by
    intro n
    simp only [List.map_map, List.all_map, List.all_eq_true]
    intro e he; exact hfit e he
  have hmap : ∀ n : String, List.map Prod.snd (q.map fun e => (e.id, e.rows n)) = q.map fun e => e.rows n := by
    intro n; simp [Function.comp_def]
  induction data with
  | nil => rfl
  | cons p data ih =>
    obtain ⟨n, s⟩ := p
    have ih' := ih (fun m s hm => hs m s (List.mem_cons_of_mem _ hm))
    have h0 := hs n s (by simp)
    cases s with
    | virt k tgt =>
      have e : physNames ((n, Store.virt k tgt) :: data) = physNames data := rfl
      rw [e] at hne ⊢
      exact ih' hne
    | plain d =>
      have e : physNames ((n, Store.plain d) :: data) = n :: physNames data := rfl
      rw [e] at hne ⊢
      have ih' := ih' (fun m hm => hne m (List.mem_cons_of_mem _ hm))
      simp only [StoreOk] at h0
      subst h0
      have hn0 := hne n (by simp)
      simp only [Table.collect, hall', hmap, not_true_eq_false, if_false, ih']
      rw [if_neg (by simpa using hn0)]
      rfl
    | tag d =>
      have e : physNames ((n, Store.tag d) :: data) = n :: physNames data := rfl
      rw [e] at hne ⊢
      have ih' := ih' (fun m hm => hne m (List.mem_cons_of_mem _ hm))
      simp only [StoreOk] at h0
      subst h0
      have hn0 := hne n (by simp)
      simp only [Table.collect, hall', hmap, not_true_eq_false, if_false, ih']
      rw [if_neg (by simpa using hn0)]
      rfl

theorem rangesFrom_keys (s : Nat) (d : Dict Int (List V)) :
    (Table.rangesFrom s d).map Prod.fst = d.map Prod.fst := by
  induction d generalizing s with
  | nil => rfl
  | cons p d ih => obtain ⟨id, rows⟩ := p; simp [Table.rangesFrom, ih]

/-- The range of a sequence cuts its rows out of the merged rows. -/
theorem range_slice {d : Dict Int (List V)} (hn : (d.map Prod.fst).Nodup) {id : Int} {rows : List V}
    (hm : (id, rows) ∈ d) (s : Nat) :
    ∃ start, Dict.get? (Table.rangesFrom s d) id = some (s + start, rows.length) ∧
      (((d.map Prod.snd).flatten.drop start).take rows.length) = rows := by
  induction d generalizing s with
  | nil => simp at hm
  | cons p d ih =>
    obtain ⟨j, r⟩ := p
    simp only [List.map_cons, List.nodup_cons] at hn
    rcases List.mem_cons.1 hm with heq | hm
    · injection heq with h1 h2; subst h1; subst h2
      exact ⟨0, by simp [Table.rangesFrom, Dict.get?], by simp⟩
    · have hne : j ≠ id := by
        rintro rfl; exact hn.1 (List.mem_map.2 ⟨_, hm, rfl⟩)
      obtain ⟨start, h1, h2⟩ := ih hn.2 hm (s + r.length)
      refine ⟨r.length + start, ?_, ?_⟩
      · simp only [Table.rangesFrom, Dict.get?, hne, if_false, h1]
        congr 2; omega
      · simp only [List.map_cons, List.flatten_cons]
        rw [List.drop_append]
        simp only [List.drop_eq_nil_of_le (Nat.le_add_right r.length start), List.nil_append]
        rw [Nat.add_sub_cancel_left]; exact h2

/-- The sequence written for episode `e`. -/
def seqOf (names : List String) (e : Entry V) : Seqn V := names.map fun n => (n, e.rows n)

theorem get?_map_name {β : Type w} (names : List String) (f : String → β) (n : String) (h : n ∈ names) :
    Dict.get? (names.map fun n => (n, f n)) n = some (f n) := by
  induction names with
  | nil => simp at h
  | cons m names ih =>
    simp only [List.map_cons, Dict.get?]
    by_cases hm : m = n
    · simp [hm]
    · simp only [hm, if_false]
      exact ih (by simpa [Ne.symm hm] using h)

theorem reassemble_ok {names all : List String} {q : List (Entry V)} (hn : (q.map Entry.id).Nodup)
    {e : Entry V} (he : e ∈ q) (hsub : ∀ n ∈ names, n ∈ all) :
    Table.reassemble (all.map fun n => (n, (q.map fun e => e.rows n).flatten)) e.id
      (names.map fun n => (n, Table.rangesFrom 0 (q.map fun e => (e.id, e.rows n))))
    = .ok (seqOf names e) := by
  induction names with
  | nil => rfl
  | cons n names ih =>
    have ih := ih (fun m hm => hsub m (List.mem_cons_of_mem _ hm))
    have hk : ((q.map fun e => (e.id, e.rows n)).map Prod.fst).Nodup := by
      simpa [Function.comp_def] using hn
    obtain ⟨start, h1, h2⟩ := range_slice hk (id := e.id) (rows := e.rows n)
      (List.mem_map.2 ⟨e, he, rfl⟩) 0
    simp only [List.map_cons, Table.reassemble]
    rw [ofPairs_of_nodup (by rw [rangesFrom_keys]; exact hk), h1]
    simp only
    rw [get?_map_name all (fun n => (q.map fun e => e.rows n).flatten) n (hsub n (by simp)), ih]
    have : List.map Prod.snd (q.map fun e => (e.id, e.rows n)) = q.map fun e => e.rows n := by
      simp [Function.comp_def]
    rw [this] at h2
    simp only [Nat.zero_add, h2, Except.map]
    rfl

theorem set_same {κ : Type} {α : Type v} [DecidableEq κ] {d : Dict κ α} {k : κ} {v : α}
    (h : d.get? k = some v) : d.set k v = d := by
  induction d with
  | nil => simp [Dict.get?] at h
  | cons p d ih =>
    obtain ⟨m, c⟩ := p
    simp only [Dict.get?] at h
    by_cases hm : m = k
    · simp only [hm, if_true, Option.some.injEq] at h; subst h; simp [Dict.set, hm]
    · simp only [hm, if_false] at h
      simp only [Dict.set, hm, if_false, ih h]

theorem loadColumns_self (rest cols : Dict String ColKind) (hn : cols.keys.Nodup)
    (h : ∀ p ∈ rest, p ∈ cols) : Table.loadColumns rest cols = cols := by
  induction rest with
  | nil => rfl
  | cons p rest ih =>
    have ih := ih (fun p hp => h p (List.mem_cons_of_mem _ hp))
    obtain ⟨n, k⟩ := p
    have hm := h (n, k) (by simp)
    cases k with
    | plain => exact ih
    | tag => exact ih
    | virt k tgt =>
      have hg := get?_of_mem hn hm
      simp only [Table.loadColumns, hg]
      rw [set_same hg]; exact ih

/-! ## Tables while being filled -/

/-- A strategy that tracks `q`, used to state facts that do not depend on the strategies. -/
def ghost (q : List (Entry V)) : Strategy := .fifo { ids := q.map Entry.id, lens := lensOf q }

theorem ghost_tracks (q : List (Entry V)) : (ghost q).Tracks (lensOf q) := ⟨by simp, rfl, rfl⟩

/-- The table holds `q`, whatever its strategies know. -/
def InvData (t : Table V) (q : List (Entry V)) : Prop :=
  Inv { t with sampler := ghost q, ejector := ghost q } q

theorem Inv.toData {t : Table V} {q : List (Entry V)} (h : Inv t q) : InvData t q :=
  ⟨h.nodup, h.lengths, h.total, h.shape, h.names, h.stores, ghost_tracks q, ghost_tracks q⟩

theorem InvData.toInv {t : Table V} {q : List (Entry V)} (h : InvData t q)
    (h1 : t.sampler.Tracks (lensOf q)) (h2 : t.ejector.Tracks (lensOf q)) : Inv t q :=
  ⟨h.nodup, h.lengths, h.total, h.shape, h.names, h.stores, h1, h2⟩

/-- Adding a sequence that fits. -/
theorem add_fit {t : Table V} {q : List (Entry V)} (h : InvData t q) {seq : Seqn V} (hs : SeqOk t seq)
    {id : Int} (hid : Table.wrapId id ∉ q.map Entry.id) {rows : List V} (hl : seq.get? t.lengthKey = some rows)
    (hfit : (total q : Int) + rows.length ≤ t.maxlen) (draws : List Nat) {s1 e1 : Strategy}
    (h1 : t.sampler.track (Table.wrapId id) rows.length = (s1, .ok ()))
    (h2 : t.ejector.track (Table.wrapId id) rows.length = (e1, .ok ())) :
    ∃ t', Table.addSequence draws id seq t = (t', .ok ()) ∧ t'.sampler = s1 ∧ t'.ejector = e1 ∧
      InvData t' (q ++ [entryOf (Table.wrapId id) rows.length seq]) ∧
      t'.columns = t.columns ∧ t'.lengthKey = t.lengthKey ∧ t'.maxlen = t.maxlen ∧ t'.filled = t.filled := by
  have hw := writeColumns_ok (t := t) (id := Table.wrapId id) seq hs.names hs.known
    (by have := h.keys_eq; exact this) h.names
  have hw' := writeColumns_ok (t := { t with sampler := ghost q, ejector := ghost q })
    (id := Table.wrapId id) seq hs.names hs.known
    (by have := h.keys_eq; exact this) h.names
  obtain ⟨tg, g1, g2, g3, g4⟩ := append_ok (t := { t with sampler := ghost q, ejector := ghost q })
    (len := rows.length) (seq := seq) h ⟨hs.names, hs.known, hs.complete⟩ hid
  rw [hw'] at g1
  simp only [Res.andThen_ok] at g1
  refine ⟨{ t with
      data := t.data.map (putSeq (Table.wrapId id) seq), total := t.total + rows.length,
      lengths := t.lengths.set (Table.wrapId id) rows.length, sampler := s1, ejector := e1 }, ?_, rfl, rfl,
      ?_, rfl, rfl, rfl, rfl⟩
  · unfold Table.addSequence
    have ht : t.total = (total q : Nat) := h.total
    rw [hl]
    simp only
    rw [if_neg (by omega), Res.andThen_ok, hw]
    simp only [Res.andThen_ok, Res.lift, h1, h2]
  · rw [Res.andThen_eq_ok] at g1
    obtain ⟨ta, _, k1, k2⟩ := g1
    simp only [Res.lift, Prod.mk.injEq] at k1 k2
    obtain ⟨k1, _⟩ := k1
    obtain ⟨k2, _⟩ := k2
    subst k1; subst k2
    exact ⟨g2.nodup, g2.lengths, g2.total, g2.shape, g2.names, g2.stores, ghost_tracks _, ghost_tracks _⟩

/-! ## Strategies while importing -/

/-- A strategy during a simple import of the sequences `full`, of which `l` have been added. -/
def Strategy.Importing (s : Strategy) (l full : Dict Int Nat) : Prop :=
  match s with
  | .fifo s => s.ids = full.keys ∧ s.lens = full ∧ s.inImport = true
  | .uniform _ => s.Tracks l
  | .coverage _ => s.Tracks l

theorem Strategy.importing_track {s : Strategy} {l full : Dict Int Nat} (h : s.Importing l full) {id : Int}
    (hid : id ∉ l.keys) (len : Nat) :
    ∃ s', s.track id len = (s', .ok ()) ∧ s'.Importing (l ++ [(id, len)]) full := by
  cases s with
  | fifo s =>
    refine ⟨.fifo s, ?_, h⟩
    obtain ⟨_, _, h3⟩ := h
    simp [track, Fifo.track, h3, Res.lift]
  | uniform s =>
    obtain ⟨s', h1, h2⟩ := tracks_track (s := .uniform s) (len := len) h hid
    refine ⟨s', h1, ?_⟩
    simp only [track, Res.lift, Prod.mk.injEq] at h1
    rw [← h1.1] at h2 ⊢; exact h2
  | coverage s =>
    obtain ⟨s', h1, h2⟩ := tracks_track (s := .coverage s) (len := len) h hid
    refine ⟨s', h1, ?_⟩
    simp only [track, Res.lift, Prod.mk.injEq] at h1
    rw [← h1.1] at h2 ⊢; exact h2

theorem Strategy.importing_done {s : Strategy} {l : Dict Int Nat} (h : s.Importing l l) :
    (s.setImport false).Tracks l := by
  cases s with
  | fifo s => exact ⟨h.1, h.2.1, rfl⟩
  | uniform s => exact h
  | coverage s => exact h

/-- Options of a strategy: its class and, for FIFO, how it samples. -/
def Strategy.options : Strategy → Nat × Bool × Bool
  | .fifo s => (0, s.perEpisode, s.randomOffset)
  | .uniform _ => (1, false, false)
  | .coverage _ => (2, false, false)

theorem Strategy.options_track {s s' : Strategy} {id : Int} {len : Nat} {x : Except Err Unit}
    (h : s.track id len = (s', x)) : s'.options = s.options := by
  cases s with
  | fifo s =>
    simp only [track, Res.lift, Prod.mk.injEq] at h
    rw [← h.1]; unfold Fifo.track
    split
    · rfl
    · split <;> rfl
  | uniform s => simp only [track, Res.lift, Prod.mk.injEq] at h; rw [← h.1]; rfl
  | coverage s => simp only [track, Res.lift, Prod.mk.injEq] at h; rw [← h.1]; rfl

/-! ## The import loop -/

/-- The episode as it comes back: rows of the stored columns only. -/
def restrict (names : List String) (e : Entry V) : Entry V := ⟨e.id, e.len, rowsOf (seqOf names e)⟩

theorem rowsOf_seqOf {names : List String} {e : Entry V} {n : String} (h : n ∈ names) :
    rowsOf (seqOf names e) n = e.rows n := by
  simp [rowsOf, seqOf, get?_map_name names e.rows n h]

theorem importLoop_ok {a : Archive V} {draws : List Nat} {names : List String} {q : List (Entry V)}
    (hn : (q.map Entry.id).Nodup) (hid : ∀ e ∈ q, 0 ≤ e.id)
    (hranges : a.ranges = names.map fun n => (n, Table.rangesFrom 0 (q.map fun e => (e.id, e.rows n))))
    (hrows : a.rows = names.map fun n => (n, (q.map fun e => e.rows n).flatten))
    (hnames : names.Nodup) {lk : String} (hlk : lk ∈ names) (hlen : ∀ e ∈ q, e.len = (e.rows lk).length)
    {full : Dict Int Nat} (todo done : List (Entry V)) (hq : q = done ++ todo)
    {t : Table V} (hcols : ∀ n ∈ names, n ∈ t.columns.keys)
    (hcomplete : ∀ p ∈ t.columns, (p.2 = .plain ∨ p.2 = .tag) → p.1 ∈ names) (hkey : t.lengthKey = lk)
    (hcap : (total q : Int) ≤ t.maxlen)
    (h : InvData t (done.map (restrict names)))
    (h1 : t.sampler.Importing (lensOf done) full) (h2 : t.ejector.Importing (lensOf done) full) :
    ∃ t', Res.forEach (todo.map Entry.id) (Table.importOne a draws) t = (t', .ok ()) ∧
      InvData t' (q.map (restrict names)) ∧ t'.sampler.Importing (lensOf q) full ∧
      t'.ejector.Importing (lensOf q) full ∧ t'.columns = t.columns ∧ t'.lengthKey = t.lengthKey ∧
      t'.maxlen = t.maxlen ∧ t'.filled = t.filled ∧ t'.sampler.options = t.sampler.options ∧
      t'.ejector.options = t.ejector.options := by
  induction todo generalizing done t with
  | nil =>
    simp only [List.append_nil] at hq
    subst hq
    exact ⟨t, rfl, h, h1, h2, rfl, rfl, rfl, rfl, rfl, rfl⟩
  | cons e todo ih =>
    have hmem : e ∈ q := by rw [hq]; simp
    have hw : Table.wrapId e.id = e.id := by
      have := hid e hmem
      simp only [Table.wrapId]; rw [if_neg (by omega)]
    have hre : Table.reassemble a.rows e.id a.ranges = .ok (seqOf names e) := by
      rw [hranges, hrows]; exact reassemble_ok hn hmem (fun n hn => hn)
    have hnot : e.id ∉ done.map Entry.id := by
      rw [hq, List.map_append, List.nodup_append] at hn
      intro hm
      exact hn.2.2 e.id hm e.id (by simp) rfl
    obtain ⟨s1, k1, k2⟩ := Strategy.importing_track h1 (id := e.id) (by simpa using hnot) (e.rows lk).length
    obtain ⟨e1, k3, k4⟩ := Strategy.importing_track h2 (id := e.id) (by simpa using hnot) (e.rows lk).length
    have hsk : (seqOf names e).keys = names := by simp [seqOf, keys, Function.comp_def]
    have hseq : SeqOk t (seqOf names e) := by
      refine ⟨by rw [hsk]; exact hnames, by rw [hsk]; exact hcols, by rw [hsk]; exact hcomplete⟩
    have htot : ∀ l : List (Entry V), total (l.map (restrict names)) = total l := by
      intro l; simp [total, restrict, Function.comp_def]
    obtain ⟨t1, j1, j2, j3, j4, j5, j6, j7, j8⟩ := add_fit h hseq (id := e.id) (rows := e.rows lk)
      (by rw [hw]; simpa [restrict, Function.comp_def] using hnot)
      (by rw [hkey]; exact get?_map_name names e.rows lk hlk)
      (by
        rw [htot]
        have : total q = total done + (e.len + total todo) := by rw [hq]; simp
        have hl := hlen e hmem
        omega)
      draws (by rw [hw]; exact k1) (by rw [hw]; exact k3)
    have hentry : entryOf (Table.wrapId e.id) (e.rows lk).length (seqOf names e) = restrict names e := by
      simp [entryOf, restrict, hw, hlen e hmem]
    rw [hentry] at j4
    obtain ⟨t2, i1, i2, i3, i4, i5, i6, i7, i8, i9, i10⟩ := ih (done ++ [e]) (by rw [hq]; simp) (t := t1)
      (by rw [j5]; exact hcols) (by rw [j5]; exact hcomplete) (by rw [j6]; exact hkey)
      (by rw [j7]; exact hcap) (by simpa using j4)
      (by rw [j2]; simpa [lensOf, hlen e hmem] using k2)
      (by rw [j3]; simpa [lensOf, hlen e hmem] using k4)
    refine ⟨t2, ?_, i2, i3, i4, i5.trans j5, i6.trans j6, i7.trans j7, i8.trans j8, ?_, ?_⟩
    · simp only [List.map_cons, Res.forEach, Table.importOne, hre, j1, Res.andThen_ok]
      exact i1
    · rw [i9, j2]; exact Strategy.options_track k1
    · rw [i10, j3]; exact Strategy.options_track k3

/-- Only the rows of stored columns matter. -/
theorem InvData.unrestrict {t : Table V} {q : List (Entry V)} {names : List String}
    (h : InvData t (q.map (restrict names))) (hnames : ∀ n, n ∈ physNames t.data → n ∈ names) :
    InvData t q := by
  have hid : (q.map (restrict names)).map Entry.id = q.map Entry.id := by simp [restrict, Function.comp_def]
  have hlens : lensOf (q.map (restrict names)) = lensOf q := by simp [lensOf, restrict, Function.comp_def]
  have htot : total (q.map (restrict names)) = total q := by simp [total, restrict, Function.comp_def]
  refine ⟨by rw [← hid]; exact h.nodup, by rw [← hlens]; exact h.lengths, by rw [← htot]; exact h.total,
    h.shape, h.names, ?_, ghost_tracks q, ghost_tracks q⟩
  intro n s hm
  have h0 := h.stores n s hm
  have key : ∀ d : Dict Int (List V), n ∈ names →
      d = (q.map (restrict names)).map (fun e => (e.id, e.rows n)) → d = q.map fun e => (e.id, e.rows n) := by
    intro d hn hd
    rw [hd, List.map_map]
    apply List.map_congr_left
    intro e _
    simp only [Function.comp_apply, restrict, rowsOf_seqOf hn]
  cases s with
  | plain d => exact key d (hnames n (mem_physNames.2 ⟨_, hm, Or.inl rfl⟩)) h0
  | tag d => exact key d (hnames n (mem_physNames.2 ⟨_, hm, Or.inr rfl⟩)) h0
  | virt k tgt => trivial

end Verif
