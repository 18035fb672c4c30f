import Verif.Model.MemoryDraws
import Verif.Props.UniformDraws
import Verif.Props.DqnMemory

/-!
# C173: a memory that is used without end shows again and again whatever comes back again and again
-/

namespace Verif.Props

namespace MemoryDraws

open Verif Verif.Spec MeasureTheory ProbabilityTheory Filter
open Verif.Props.RealDraws (unit generators)
open Verif.Props.BatchMean (win pair)
open Verif.Props.RowMean
open Verif.MemoryDraws (Call run)
open scoped Topology

/-! ## Specification -/

/-- The additions among the first `k` calls -/
def adds {V : Type u} (call : Nat → Call V) (k : Nat) : List (Op V) :=
  (List.range k).filterMap fun j => match call j with
    | .add id seq => some (.add id seq [])
    | .batch _ => none

/-- The sizes of the batches among the first `k` calls -/
def drawn {V : Type u} (call : Nat → Call V) (k : Nat) : List Nat :=
  (List.range k).filterMap fun j => match call j with
    | .add _ _ => none
    | .batch count => some count

/-- What a bounded queue contains after the first `k` calls -/
def held {V : Type u} (maxlen : Int) (lk : String) (call : Nat → Call V) (k : Nat) : List (Spec.Entry V) :=
  (queueAfter maxlen (acts lk (adds call k))).2

/-- A sequence that can be added when `q` is stored, and is long enough for windows of `n` transitions -/
structure Suits {V : Type u} (columns : List Column) (maxlen : Int) (lk : String) (t0 : Table V) (n : Nat) (q : List (Spec.Entry V)) (id : Int)
    (seq : Seqn V) : Prop where
  ok : SeqOk t0 seq
  fresh : Table.wrapId id ∉ q.map Spec.Entry.id
  fits : -2 ^ 63 ≤ Table.wrapId id ∧ Table.wrapId id < 2 ^ 63
  rows : ∃ rows, seq.get? lk = some rows ∧ n ≤ rows.length ∧ (rows.length : Int) ≤ maxlen
  episode : EpisodeOk columns (entryOf (Table.wrapId id) (rowsOf seq lk).length seq)

/-- Sequences are suitable, and batches are asked for only when something is stored. -/
structure Proper {V : Type u} (columns : List Column) (maxlen : Int) (lk : String) (t0 : Table V) (n : Nat) (call : Nat → Call V) : Prop where
  add : ∀ k id seq, call k = .add id seq → Suits columns maxlen lk t0 n (held maxlen lk call k) id seq
  batch : ∀ k count, call k = .batch count → held maxlen lk call k ≠ []

/-! ## Proofs -/

section
variable {V : Type u}

theorem adds_add {call : Nat → Call V} {k : Nat} {id : Int} {seq : Seqn V} (h : call k = .add id seq) :
    adds call (k + 1) = adds call k ++ [.add id seq []] := by
  simp [adds, List.range_succ, h]

theorem adds_batch {call : Nat → Call V} {k count : Nat} (h : call k = .batch count) : adds call (k + 1) = adds call k := by
  simp [adds, List.range_succ, h]

theorem drawn_add {call : Nat → Call V} {k : Nat} {id : Int} {seq : Seqn V} (h : call k = .add id seq) :
    drawn call (k + 1) = drawn call k := by
  simp [drawn, List.range_succ, h]

theorem drawn_batch {call : Nat → Call V} {k count : Nat} (h : call k = .batch count) : drawn call (k + 1) = drawn call k ++ [count] := by
  simp [drawn, List.range_succ, h]

theorem drawn_le (call : Nat → Call V) {a b : Nat} (h : a ≤ b) : ∃ l, drawn call b = drawn call a ++ l := by
  obtain ⟨d, rfl⟩ := Nat.exists_eq_add_of_le h
  simp only [drawn, List.range_add, List.filterMap_append]
  exact ⟨_, rfl⟩

theorem cap_eq (maxlen : Int) (lk : String) (call : Nat → Call V) (k : Nat) : (queueAfter maxlen (acts lk (adds call k))).1 = maxlen := by
  induction k with
  | zero => rfl
  | succ k ih =>
    cases h : call k with
    | add id seq => rw [adds_add h, acts_append, toAct_add, queueAfter_add]; exact ih
    | batch count => rw [adds_batch h]; exact ih

theorem added_of {lk : String} {call : Nat → Call V} {k : Nat} {e : Spec.Entry V} (he : e ∈ added (acts lk (adds call k))) :
    ∃ j id seq, call j = .add id seq ∧ e = entryOf (Table.wrapId id) (rowsOf seq lk).length seq := by
  induction k with
  | zero => simp [adds, acts, added] at he
  | succ k ih =>
    cases h : call k with
    | add id seq =>
      rw [adds_add h, acts_append, toAct_add, added, List.filterMap_append, List.mem_append] at he
      rcases he with he | he
      · exact ih he
      · simp only [List.filterMap_cons, List.filterMap_nil, List.mem_singleton] at he
        exact ⟨k, id, seq, h, he⟩
    | batch count =>
      rw [adds_batch h] at he
      exact ih he

/-- Another sampler and other buffers -/
theorem hist_sampler {columns : List Column} {maxlen : Int} {lk : String} {ops : List (Op V)} {t : Table V} {q : List (Spec.Entry V)}
    (h : Hist columns maxlen lk ops t q) {s : Uniform} (hs : (Strategy.uniform s).Tracks (lensOf q)) (temp : Dict String (List (Cell V))) :
    Hist columns maxlen lk ops { t with sampler := .uniform s, temp := temp } q :=
  ⟨⟨h.inv.nodup, h.inv.lengths, h.inv.total, h.inv.shape, h.inv.names, h.inv.stores, hs, h.inv.ejector⟩, h.len, h.cap, h.key, h.columns,
    h.maxlen, h.sub, h.last, h.full, h.notFull, h.newest⟩

theorem sample_state {count n : Nat} {u v : Nat → ℝ} {i : Nat} {junk : String → Nat → Cell V} {t : Table V} {s : Uniform}
    (hs : t.sampler = .uniform s) :
    ∃ s' temp, (Verif.RealDraws.tableSample count n u v i junk t).1 = { t with sampler := .uniform s', temp := temp } := by
  unfold Verif.RealDraws.tableSample
  rw [hs]
  simp only
  rcases h : Verif.RealDraws.sample s count n u v i with ⟨s', r⟩
  cases r with
  | error e => exact ⟨s', t.temp, rfl⟩
  | ok pts =>
    obtain ⟨temp, ht⟩ := Table.gather_state count n pts junk t.data { t with sampler := .uniform s' }
    exact ⟨s', temp, ht⟩

/-- One batch -/
theorem one_batch {columns : List Column} {maxlen : Int} {lk : String} {ops : List (Op V)} {t : Table V} {q : List (Spec.Entry V)}
    (h : Hist columns maxlen lk ops t q) (hw : WellTargeted columns) (hep : ∀ e ∈ q, EpisodeOk columns e) {n : Nat} (hn : 0 < n)
    (hlong : ∀ e ∈ q, n ≤ e.len) (hne : q ≠ []) {s : Uniform} (hs : t.sampler = .uniform s)
    (hfit : ∀ id ∈ (lensOf q).keys, -2 ^ 63 ≤ id ∧ id < 2 ^ 63) {u v : Nat → ℝ} (hu : ∀ k, u k ∈ Set.Ico (0 : ℝ) 1)
    (hv : ∀ k, v k ∈ Set.Ico (0 : ℝ) 1) (count i : Nat) (junk : String → Nat → Cell V) :
    ∃ t2 s2 out, Verif.RealDraws.tableSample count n u v i junk t = (t2, .ok out) ∧ Hist columns maxlen lk ops t2 q ∧
      t2.sampler = .uniform s2 ∧ t2.ejector.kind = t.ejector.kind ∧
      (∀ k < count, win (UniformDraws.fresh (lensOf q)) n (u (i + k), v (i + k)) ∈ BatchMean.windows (lensOf q) n) ∧
      ∀ g : Dict String (List (Cell V)) → ℝ, (List.range count).map (fun k => g (part t.columns n out k)) =
        (List.range count).map fun k => atPoint t.columns n g q (win (UniformDraws.fresh (lensOf q)) n (u (i + k), v (i + k))) := by
  obtain ⟨s0, s0', h0, hr0, hsame⟩ := exists_tracked (lens_nodup h) hfit
  have ht : (Strategy.uniform s).Tracks (lensOf q) := hs ▸ h.inv.sampler
  obtain ⟨_, a1, a2, a3⟩ := Strategy.refresh_uniform h0.tracks.1 hr0
  have hwin : win (UniformDraws.fresh (lensOf q)) (n : Int) = win s0' (n : Int) := by
    funext x
    simp only [win, UniformDraws.fresh, Uniform.weights, a1, a2, a3]
  obtain ⟨t2, s2, out, g1, g2, g3, g4, g5, g6⟩ := tableSample_eq h hw hep hn hlong hne h0 hr0 hsame hu hv count i junk rfl rfl hs ht
  obtain ⟨s', temp, hst⟩ := sample_state (count := count) (n := n) (u := u) (v := v) (i := i) (junk := junk) hs
  rw [g1] at hst
  simp only at hst
  have hs' : s' = s2 := by
    rw [hst] at g4
    simpa using g4
  subst hs'
  rw [hwin]
  refine ⟨t2, s', out, g1, by rw [hst]; exact hist_sampler h g5 temp, g4, by rw [hst], fun k _ => ?_, g6⟩
  exact BatchMean.win_mem h0 hr0 (total_pos h hn hlong hne) (hu _) (hv _) (lens_long hlong)

/-- One addition -/
theorem one_add {columns : List Column} {maxlen : Int} {lk : String} {call : Nat → Call V} {k : Nat} {t0 t : Table V}
    (hcol : t.columns = t0.columns)
    (h : Hist columns maxlen lk (adds call k) t (held maxlen lk call k)) (hk : t.ejector.kind = 0) {id : Int} {seq : Seqn V} {n : Nat}
    (hc : call k = .add id seq) (hs : Suits columns maxlen lk t0 n (held maxlen lk call k) id seq) {s : Uniform} (hu : t.sampler = .uniform s) :
    ∃ t' s', Table.addSequence [] id seq t = (t', .ok ()) ∧ Hist columns maxlen lk (adds call (k + 1)) t' (held maxlen lk call (k + 1)) ∧
      t'.ejector.kind = 0 ∧ t'.sampler = .uniform s' := by
  have hso : SeqOk t seq := ⟨hs.ok.names, by rw [hcol]; exact hs.ok.known, by rw [hcol]; exact hs.ok.complete⟩
  have hmax : t.maxlen = maxlen := by rw [h.maxlen, cap_eq]
  obtain ⟨rows, hr1, hr2, hr3⟩ := hs.rows
  have hsucc : ∃ t', Table.addSequence [] id seq t = (t', .ok ()) := by
    apply add_succeeds h.inv hso hs.fresh (rows := rows) (by rw [h.key]; exact hr1)
    intro _
    cases hE : t.ejector with
    | uniform s => rw [hE] at hk; simp [Strategy.kind] at hk
    | coverage s => rw [hE] at hk; simp [Strategy.kind] at hk
    | fifo s =>
      have ht := h.inv.ejector
      rw [hE] at ht
      obtain ⟨t1, t2, _⟩ := ht
      have hnd : (lensOf (held maxlen lk call k)).keys.Nodup := by simpa using h.inv.nodup
      simp only [Strategy.eject, Fifo.eject, t1, t2]
      rcases Fifo.ejectLoop_complete (l := lensOf (held maxlen lk call k))
        (t.total + rows.length - t.maxlen) _ (fun _ h => h) with ⟨_, out, h3⟩ | ⟨h3, _⟩
      · exact ⟨_, out, by rw [h3]⟩
      · exfalso
        rw [lenSum_keys hnd] at h3
        have h4 := h.inv.total
        have h5 : trackedTotal (lensOf (held maxlen lk call k)) = total (held maxlen lk call k) := by
          simp [trackedTotal, total, lensOf, Function.comp_def]
        omega
  obtain ⟨t', ha⟩ := hsucc
  obtain ⟨ids, hids⟩ := add_ok h.inv hso hs.fresh ha
  rw [h.key] at hids
  have hid : Table.wrapId id ∉ t.lengths.keys := by rw [h.inv.lengths]; simpa using hs.fresh
  have hh := h.add hid hids
  have hb := AddOk.fifo h.inv hk hids (by have := hh.cap; rw [hids.config.maxlen] at this; exact this)
  rw [hb] at hh
  have hkind : t'.sampler.kind = (Strategy.uniform s).kind := by rw [hids.config.samplerKind, hu]
  refine ⟨t', ?_⟩
  cases hS : t'.sampler with
  | fifo s' => rw [hS] at hkind; simp [Strategy.kind] at hkind
  | coverage s' => rw [hS] at hkind; simp [Strategy.kind] at hkind
  | uniform s' =>
    refine ⟨s', ha, ?_, by rw [hids.config.ejectorKind, hk], rfl⟩
    have hq : held maxlen lk call (k + 1) = boundedAdd t.maxlen (held maxlen lk call k) (entryOf (Table.wrapId id) (rowsOf seq lk).length seq) := by
      rw [held, adds_add hc, acts_append, toAct_add, queueAfter_add, ← h.maxlen]
      rfl
    rw [hq, adds_add hc]
    exact hh

section
variable {columns : List Column} {maxlen : Int} {lk : String} {t0 : Table V} (hc : Created columns maxlen lk t0) {f : Fifo}
  (hf : t0.ejector = .fifo f) {s : Uniform} (hs : t0.sampler = .uniform s) (hw : WellTargeted columns) {n : Nat} (hn : 0 < n)
  {call : Nat → Call V} (hp : Proper columns maxlen lk t0 n call)
include hc hf hs hw hn hp

omit hc hf hs hw hn in
theorem stored_ok {k : Nat} {t : Table V} (h : Hist columns maxlen lk (adds call k) t (held maxlen lk call k)) :
    ∀ e ∈ held maxlen lk call k, EpisodeOk columns e ∧ n ≤ e.len ∧ -2 ^ 63 ≤ e.id ∧ e.id < 2 ^ 63 := by
  intro e he
  obtain ⟨j, id, seq, h1, rfl⟩ := added_of (h.sub.subset he)
  have hsu := hp.add j id seq h1
  obtain ⟨rows, hr1, hr2, hr3⟩ := hsu.rows
  refine ⟨hsu.episode, ?_, hsu.fits⟩
  simpa [entryOf, rowsOf, hr1] using hr2

/-- How far the memory is after `k` calls -/
def At (columns : List Column) (maxlen : Int) (lk : String) (t0 : Table V) (call : Nat → Call V) (n : Nat) (junk : Nat → String → Nat → Cell V)
    (u v : Nat → ℝ) (k : Nat) (t : Table V) (out : List (Dict String (List (Cell V)))) : Prop :=
  run n u v junk t0 call k = .ok (t, (drawn call k).sum, out) ∧ out.length = (drawn call k).length ∧
    Hist columns maxlen lk (adds call k) t (held maxlen lk call k) ∧ (∃ s, t.sampler = .uniform s) ∧ t.ejector.kind = 0 ∧
    t.columns = t0.columns

omit hw hn hp in
theorem at_zero (junk : Nat → String → Nat → Cell V) (u v : Nat → ℝ) : At columns maxlen lk t0 call n junk u v 0 t0 [] :=
  ⟨rfl, rfl, (run_fifo hc (by rw [hf]; rfl) Run.nil).1, ⟨s, hs⟩, by rw [hf]; rfl, rfl⟩

omit hc hf hs hw hn in
theorem at_add {junk : Nat → String → Nat → Cell V} {u v : Nat → ℝ} {k : Nat} {t : Table V} {out : List (Dict String (List (Cell V)))}
    (h : At columns maxlen lk t0 call n junk u v k t out) {id : Int} {seq : Seqn V} (hcall : call k = .add id seq) :
    ∃ t', At columns maxlen lk t0 call n junk u v (k + 1) t' out := by
  obtain ⟨h1, h2, h3, ⟨s1, h4⟩, h5, h6⟩ := h
  obtain ⟨t', s', g1, g2, g3, g4⟩ := one_add h6 h3 h5 hcall (hp.add k id seq hcall) h4
  refine ⟨t', ?_, by rw [drawn_add hcall, h2], g2, ⟨s', g4⟩, g3, by rw [g2.columns, ← h3.columns, h6]⟩
  rw [drawn_add hcall]
  simp only [run, h1, hcall, g1]

omit hc hf hs in
theorem at_batch {junk : Nat → String → Nat → Cell V} {u v : Nat → ℝ} (hu : ∀ k, u k ∈ Set.Ico (0 : ℝ) 1) (hv : ∀ k, v k ∈ Set.Ico (0 : ℝ) 1)
    {k : Nat} {t : Table V} {out : List (Dict String (List (Cell V)))} (h : At columns maxlen lk t0 call n junk u v k t out) {count : Nat}
    (hcall : call k = .batch count) :
    ∃ t' d, At columns maxlen lk t0 call n junk u v (k + 1) t' (out ++ [d]) ∧
      (∀ j < count, ∃ e ∈ held maxlen lk call k, ∃ o, o + n ≤ e.len ∧ part t0.columns n d j = shown t0.columns e o n) ∧
      ∀ j < count, ∀ e ∈ held maxlen lk call k, ∀ o : Nat, win (UniformDraws.fresh (lensOf (held maxlen lk call k))) n
        (u ((drawn call k).sum + j), v ((drawn call k).sum + j)) = (e.id, (o : Int), (o : Int) + n) →
        part t0.columns n d j = shown t0.columns e o n := by
  obtain ⟨h1, h2, h3, ⟨s1, h4⟩, h5, h6⟩ := h
  have hst := stored_ok hp h3
  obtain ⟨t', s', d, g1, g2, g3, g4, g5, g6⟩ := one_batch h3 hw (fun e he => (hst e he).1) hn (fun e he => (hst e he).2.1) (hp.batch k count hcall)
    h4 (fun id hid => by
      rw [keys_lensOf] at hid
      obtain ⟨e, he, rfl⟩ := List.mem_map.1 hid
      exact (hst e he).2.2) hu hv count (drawn call k).sum (junk k)
  rw [h6] at g6
  have key : ∀ j < count, ∀ e ∈ held maxlen lk call k, ∀ o : Nat, win (UniformDraws.fresh (lensOf (held maxlen lk call k))) n
        (u ((drawn call k).sum + j), v ((drawn call k).sum + j)) = (e.id, (o : Int), (o : Int) + n) →
        part t0.columns n d j = shown t0.columns e o n := by
    intro j hj e he o hwin
    classical
    have := List.map_inj_left.1 (g6 fun x => if x = shown t0.columns e o n then 1 else 0) j (List.mem_range.2 hj)
    rw [hwin] at this
    simp only [atPoint, find_entry h3 he, Int.toNat_natCast, if_true] at this
    by_contra hne
    rw [if_neg hne] at this
    simp at this
  refine ⟨t', d, ⟨?_, by rw [drawn_batch hcall]; simp [h2], ?_, ⟨s', g3⟩, by rw [g4, h5], by rw [g2.columns, ← h3.columns, h6]⟩, fun j hj => ?_, key⟩
  · rw [drawn_batch hcall]
    simp only [run, h1, hcall, g1, List.sum_append, List.sum_singleton]
  · have : held maxlen lk call (k + 1) = held maxlen lk call k := by rw [held, adds_batch hcall, held]
    rw [this, adds_batch hcall]
    exact g2
  · obtain ⟨x, hx, hpp⟩ := List.mem_flatMap.1 (g5 j hj)
    obtain ⟨e, he, rfl⟩ := List.mem_map.1 hx
    obtain ⟨o, ho, hpp⟩ := List.mem_map.1 hpp
    rw [List.mem_range] at ho
    simp only at ho hpp
    exact ⟨e, he, o, by omega, key j hj e he o hpp.symm⟩

theorem at_all (junk : Nat → String → Nat → Cell V) {u v : Nat → ℝ} (hu : ∀ k, u k ∈ Set.Ico (0 : ℝ) 1) (hv : ∀ k, v k ∈ Set.Ico (0 : ℝ) 1)
    (k : Nat) : ∃ t out, At columns maxlen lk t0 call n junk u v k t out := by
  induction k with
  | zero => exact ⟨t0, [], at_zero hc hf hs junk u v⟩
  | succ k ih =>
    obtain ⟨t, out, h⟩ := ih
    cases hcall : call k with
    | add id seq =>
      obtain ⟨t', h'⟩ := at_add hp h hcall
      exact ⟨t', out, h'⟩
    | batch count =>
      obtain ⟨t', d, h', -⟩ := at_batch hw hn hp hu hv h hcall
      exact ⟨t', _, h'⟩

omit hc hf hs in
/-- Beginnings -/
theorem at_prefix {junk : Nat → String → Nat → Cell V} {u v : Nat → ℝ} (hu : ∀ k, u k ∈ Set.Ico (0 : ℝ) 1) (hv : ∀ k, v k ∈ Set.Ico (0 : ℝ) 1)
    {o : Nat → List (Dict String (List (Cell V)))} (h : ∀ k, ∃ t, At columns maxlen lk t0 call n junk u v k t (o k)) (a d : Nat) : o a <+: o (a + d) := by
  induction d with
  | zero => exact List.prefix_rfl
  | succ d ih =>
    refine ih.trans ?_
    obtain ⟨t, ht⟩ := h (a + d)
    obtain ⟨t1, ht1⟩ := h (a + d + 1)
    have huniq : ∀ {t2 out}, At columns maxlen lk t0 call n junk u v (a + d + 1) t2 out → o (a + d + 1) = out := by
      intro t2 out h2
      have := ht1.1.symm.trans h2.1
      simp only [Except.ok.injEq, Prod.mk.injEq, true_and] at this
      exact this.2
    cases hcall : call (a + d) with
    | add id seq =>
      obtain ⟨t', h'⟩ := at_add hp ht hcall
      rw [← Nat.add_assoc, huniq h']
    | batch count =>
      obtain ⟨t', e, h', -⟩ := at_batch hw hn hp hu hv ht hcall
      rw [← Nat.add_assoc, huniq h']
      exact List.prefix_append _ _

theorem fine (k : Nat) : UniformDraws.Fine n (lensOf (held maxlen lk call k)) ∧ (lensOf (held maxlen lk call k)).values.sum ≤ maxlen.toNat := by
  obtain ⟨t, out, h⟩ := at_all hc hf hs hw hn hp (fun _ _ _ => .bit false) (u := fun _ => 0) (v := fun _ => 0) (fun _ => by simp) (fun _ => by simp) k
  have hh := h.2.2.1
  have hst := stored_ok hp hh
  refine ⟨⟨lens_nodup hh, fun p hpm => ?_, fun id hid => ?_⟩, ?_⟩
  · obtain ⟨e, he, rfl⟩ := List.mem_map.1 hpm
    have := (hst e he).2.1
    exact ⟨this, lt_of_lt_of_le hn this⟩
  · rw [keys_lensOf] at hid
    obtain ⟨e, he, rfl⟩ := List.mem_map.1 hid
    exact (hst e he).2.2
  · have h1 := hh.cap
    rw [hh.maxlen, cap_eq] at h1
    have h2 : (lensOf (held maxlen lk call k)).values.sum = total (held maxlen lk call k) := by
      simp [Dict.values, lensOf, total, Function.comp_def]
    omega

/-- One of the windows is what was wanted. -/
theorem wanted {P : Nat → Dict String (List (Cell V)) → Prop}
    (hP : ∃ᶠ k in atTop, ∃ (count : Nat), 0 < count ∧ call k = .batch count ∧ ∃ e ∈ held maxlen lk call k, ∃ o, o + n ≤ e.len ∧
      P (drawn call k).length (shown t0.columns e o n)) :
    ∀ᵐ x ∂generators, ∀ N, ∃ k count, N ≤ (drawn call k).length ∧ 0 < count ∧ call k = .batch count ∧ ∃ e ∈ held maxlen lk call k, ∃ o : Nat,
      win (UniformDraws.fresh (lensOf (held maxlen lk call k))) n (x.1 ((drawn call k).sum + 0), x.2 ((drawn call k).sum + 0)) =
        (e.id, (o : Int), (o : Int) + n) ∧ P (drawn call k).length (shown t0.columns e o n) := by
  obtain ⟨φ, hφ, h⟩ := extraction_of_frequently_atTop hP
  choose count h1 h2 e h3 o h4 h5 using h
  have hnext : ∀ k, ∃ l, drawn call (φ (k + 1)) = drawn call (φ k) ++ (count k :: l) := by
    intro k
    obtain ⟨l, hl⟩ := drawn_le call (Nat.succ_le_of_lt (hφ (Nat.lt_succ_self k)))
    exact ⟨l, by rw [hl, Nat.succ_eq_add_one, drawn_batch (h2 k)]; simp⟩
  have hi : StrictMono fun k => (drawn call (φ k)).sum := strictMono_nat_of_lt_succ fun k => by
    obtain ⟨l, hl⟩ := hnext k
    simp only [hl, List.sum_append, List.sum_cons]
    have := h1 k
    omega
  have hj : StrictMono fun k => (drawn call (φ k)).length := strictMono_nat_of_lt_succ fun k => by
    obtain ⟨l, hl⟩ := hnext k
    simp only [hl, List.length_append, List.length_cons]
    omega
  filter_upwards [UniformDraws.again (fun k => lensOf (held maxlen lk call (φ k))) (fun k => (fine hc hf hs hw hn hp _).1)
    (fun k => (fine hc hf hs hw hn hp _).2) _ hi (fun k => (e k).id) o (fun k => (e k).len)
    (fun k => Dict.get?_of_mem (fine hc hf hs hw hn hp _).1.nodup (List.mem_map.2 ⟨e k, h3 k, rfl⟩)) h4] with x hx N
  rw [frequently_atTop] at hx
  obtain ⟨k, hk, hwin⟩ := hx N
  exact ⟨φ k, count k, hk.trans hj.le_apply, h1 k, h2 k, e k, h3 k, o k, hwin, h5 k⟩

end

end

/-- **C173**: A memory with a uniform sampler that drops the oldest episodes is used without end. Then with probability one no call fails, every
batch shows windows of episodes that are stored at that time, and whatever is wanted, from batch to batch (`P i b` for batch `b`, for countably
many `i`): if a window that is wanted is stored at infinitely many batches, then such a window is drawn infinitely often. -/
theorem C173 {V : Type} {columns : List Column} {maxlen : Int} {lk : String} {t0 : Table V} (hc : Created columns maxlen lk t0) {f : Fifo}
    (hf : t0.ejector = .fifo f) {s : Uniform} (hs : t0.sampler = .uniform s) (hw : WellTargeted columns) {n : Nat} (hn : 0 < n)
    {call : Nat → Call V} (hp : Proper columns maxlen lk t0 n call) (junk : Nat → String → Nat → Cell V) {ι : Type} [Countable ι]
    {P : ι → Nat → Dict String (List (Cell V)) → Prop}
    (hP : ∀ i, ∃ᶠ k in atTop, ∃ (count : Nat), 0 < count ∧ call k = .batch count ∧ ∃ e ∈ held maxlen lk call k, ∃ o, o + n ≤ e.len ∧
      P i (drawn call k).length (shown t0.columns e o n)) :
    ∀ᵐ x ∂generators, ∃ batches : Nat → Dict String (List (Cell V)),
      (∀ k, ∃ t, run n x.1 x.2 junk t0 call k = .ok (t, (drawn call k).sum, (List.range (drawn call k).length).map batches)) ∧
      (∀ k count, call k = .batch count → ∀ j < count, ∃ e ∈ held maxlen lk call k, ∃ o, o + n ≤ e.len ∧
        part t0.columns n (batches (drawn call k).length) j = shown t0.columns e o n) ∧
      ∀ i, ∃ᶠ b in atTop, ∃ k count, call k = .batch count ∧ (drawn call k).length = b ∧ ∃ j < count, P i b (part t0.columns n (batches b) j) := by
  filter_upwards [BatchMean.ae_generators, ae_all_iff.2 fun i => wanted hc hf hs hw hn hp (hP i)] with x hx hwant
  have hall := at_all hc hf hs hw hn hp junk (fun k => (hx k).1) (fun k => (hx k).2)
  choose t o hto using hall
  obtain ⟨b, hb⟩ := UniformDraws.limit [] o (at_prefix hw hn hp (fun k => (hx k).1) (fun k => (hx k).2) fun k => ⟨t k, hto k⟩)
  have hbatch : ∀ k count, call k = .batch count →
      (∀ j < count, ∃ e ∈ held maxlen lk call k, ∃ o, o + n ≤ e.len ∧ part t0.columns n (b (drawn call k).length) j = shown t0.columns e o n) ∧
      ∀ j < count, ∀ e ∈ held maxlen lk call k, ∀ o : Nat, win (UniformDraws.fresh (lensOf (held maxlen lk call k))) n
        (x.1 ((drawn call k).sum + j), x.2 ((drawn call k).sum + j)) = (e.id, (o : Int), (o : Int) + n) →
        part t0.columns n (b (drawn call k).length) j = shown t0.columns e o n := by
    intro k count hcall
    obtain ⟨t', d, h1, h2, h3⟩ := at_batch hw hn hp (fun k => (hx k).1) (fun k => (hx k).2) (hto k) hcall
    have h4 := (hto (k + 1)).1.symm.trans h1.1
    simp only [Except.ok.injEq, Prod.mk.injEq, true_and] at h4
    have h5 := hb (k + 1)
    rw [h4.2, List.length_append, List.length_singleton, List.range_succ, List.map_append] at h5
    have h6 := List.append_inj_right h5 (by simp)
    simp only [List.map_cons, List.map_nil, List.cons.injEq, and_true] at h6
    rw [← (hto k).2.1, ← h6]
    exact ⟨h2, h3⟩
  refine ⟨b, fun k => ⟨t k, ?_⟩, fun k count hcall => (hbatch k count hcall).1, fun i => ?_⟩
  · rw [← (hto k).2.1, ← hb]
    exact (hto k).1
  · rw [frequently_atTop]
    intro N
    obtain ⟨k, count, h1, h2, h3, e, he, o', h4, h5⟩ := hwant i N
    refine ⟨_, h1, k, count, h3, rfl, 0, h2, ?_⟩
    rw [(hbatch k count h3).2 0 h2 e he o' h4]
    exact h5

/-! ## Learning from it -/

open Verif.DqnRun (Setup Learner train)
open Verif.DqnRun.Spec (rowOf Usual)
open Verif.Dqn.Spec (Env Best table)
open Verif.Dqn (Sample)
open Verif.Props.DqnMemory (batchOf)

/-- Every batch is drawn by some call. -/
theorem exists_call {V : Type u} {call : Nat → Call V} (h : ∃ᶠ k in atTop, ∃ count, call k = .batch count) (b : Nat) :
    ∃ k count, call k = .batch count ∧ (drawn call k).length = b := by
  have hun : ∃ k, b < (drawn call k).length := by
    induction b with
    | zero =>
      obtain ⟨k, count, hk⟩ := h.exists
      exact ⟨k + 1, by rw [drawn_batch hk]; simp⟩
    | succ b ih =>
      obtain ⟨k, hk⟩ := ih
      obtain ⟨k', hk', count, hc⟩ := (frequently_atTop.1 h) k
      obtain ⟨l, hl⟩ := drawn_le call hk'
      refine ⟨k' + 1, ?_⟩
      rw [drawn_batch hc, hl]
      simp only [List.length_append, List.length_singleton]
      omega
  classical
  have hspec := Nat.find_spec hun
  have hmin := fun m => Nat.find_min hun (m := m)
  cases hk : Nat.find hun with
  | zero => rw [hk] at hspec; simp [drawn] at hspec
  | succ k =>
    rw [hk] at hspec
    have := hmin k (by omega)
    cases hcall : call k with
    | add id seq => rw [drawn_add hcall] at hspec; omega
    | batch count =>
      rw [drawn_batch hcall] at hspec
      simp only [List.length_append, List.length_singleton] at hspec
      exact ⟨k, count, hcall, by omega⟩

theorem drawn_tendsto {V : Type u} {call : Nat → Call V} (h : ∃ᶠ k in atTop, ∃ count, call k = .batch count) :
    Tendsto (fun k => (drawn call k).length) atTop atTop := by
  refine tendsto_atTop_atTop.2 fun b => ?_
  obtain ⟨k, count, -, h2⟩ := exists_call h b
  refine ⟨k, fun k' hk => ?_⟩
  obtain ⟨l, hl⟩ := drawn_le call hk
  rw [hl, List.length_append]
  omega

/-- **C173**, for Q-learning while episodes come and go: what is learned tends to the best values. -/
theorem C173_dqn {V : Type} {n m : Nat} {columns : List Column} {maxlen : Int} {lk : String} {t0 : Table V} (hc : Created columns maxlen lk t0) {f : Fifo}
    (hf : t0.ejector = .fifo f) {s : Uniform} (hs : t0.sampler = .uniform s) (hw : WellTargeted columns)
    {call : Nat → Call V} (hp : Proper columns maxlen lk t0 1 call) (junk : Nat → String → Nat → Cell V) {count : Nat} (hcount : 0 < count)
    (hsize : ∀ k c, call k = .batch c → c = count) (hinf : ∃ᶠ k in atTop, call k = .batch count)
    (e : Env n m) {c : Setup} (hu : Usual c) {x0 : Learner n m} {tt0 : Fin n → Fin (m + 1) → ℝ} (h0 : x0.target = table tt0)
    {read : Dict String (List (Cell V)) → Sample ℝ}
    (hmade : ∀ k, call k = .batch count → ∀ ep ∈ held maxlen lk call k, ∀ i < ep.len, ∃ s a, read (shown t0.columns ep i 1) = rowOf e s a)
    (hall : ∀ (s : Fin n) (a : Fin (m + 1)), ∃ᶠ k in atTop, call k = .batch count ∧ ∃ ep ∈ held maxlen lk call k, ∃ i < ep.len,
      read (shown t0.columns ep i 1) = rowOf e s a) :
    ∀ᵐ w ∂generators, ∃ (learner : Nat → Learner n m) (tt : Nat → Fin n → Fin (m + 1) → ℝ),
      (∀ k, ∃ t outs, run 1 w.1 w.2 junk t0 call k = .ok (t, (drawn call k).sum, outs) ∧
        train c (outs.map (batchOf t0.columns count read)) x0 = .ok (learner k) ∧ (learner k).target = table (tt k)) ∧
      ∀ s a x, Best (e.scale c.scale) c.gamma s a x →
        Tendsto (fun k => (learner k).net.value (s, a)) atTop (𝓝 x) ∧ Tendsto (fun k => tt k s a) atTop (𝓝 x) := by
  have hinf' : ∃ᶠ k in atTop, ∃ count, call k = .batch count := hinf.mono fun k hk => ⟨_, hk⟩
  filter_upwards [C173 hc hf hs hw Nat.one_pos hp junk (ι := Fin n × Fin (m + 1)) (P := fun i _ d => read d = rowOf e i.1 i.2)
    (fun i => (hall i.1 i.2).mono fun k ⟨h1, ep, h2, o, h3, h4⟩ => ⟨count, hcount, h1, ep, h2, o, h3, h4⟩)] with w hw'
  obtain ⟨batches, b1, b2, b3⟩ := hw'
  obtain ⟨learner, tt, l1, l2⟩ := DqnRun.C157 e hu h0 (b := fun j => batchOf t0.columns count read (batches j))
    (fun j x hx => by
      obtain ⟨k, hk, rfl⟩ := List.mem_map.1 hx
      obtain ⟨kk, c', hcall, rfl⟩ := exists_call hinf' j
      obtain rfl := hsize kk c' hcall
      obtain ⟨ep, hep, o, ho, hsh⟩ := b2 kk c' hcall k (List.mem_range.1 hk)
      rw [hsh]
      exact hmade kk hcall ep hep o ho) (N := count) (fun j => ⟨by simp [batchOf]; omega, by simp [batchOf]⟩)
    (fun s a => (b3 (s, a)).mono fun j ⟨kk, c', hcall, _, k, hk, hr⟩ => by
      obtain rfl := hsize kk c' hcall
      exact ⟨_, List.mem_map.2 ⟨k, List.mem_range.2 hk, rfl⟩, by rw [hr]; rfl, by rw [hr]; rfl⟩)
  refine ⟨fun k => learner (drawn call k).length, fun k => tt (drawn call k).length, fun k => ?_, fun s a x hx => ?_⟩
  · obtain ⟨t, ht⟩ := b1 k
    refine ⟨t, _, ht, ?_, (l1 _).2⟩
    rw [← (l1 _).1, List.map_map]
    rfl
  · exact ⟨(l2 s a x hx).1.comp (drawn_tendsto hinf'), (l2 s a x hx).2.comp (drawn_tendsto hinf')⟩

/-! ## A concrete case -/

namespace Ex

def a : Seqn Nat := ExW.ep [10, 11, 12] [1, 2, 3, 9]
def b : Seqn Nat := ExW.ep [20, 21, 22] [4, 5, 6, 7]

/-- There is space for one of two episodes. They are added in turn, each after the other was ejected, with a batch of two after each. -/
def call (k : Nat) : Call Nat := if k % 4 = 0 then .add 7 a else if k % 4 = 2 then .add 8 b else .batch 2

def ea : Spec.Entry Nat := entryOf (Table.wrapId 7) (rowsOf a "actions").length a
def eb : Spec.Entry Nat := entryOf (Table.wrapId 8) (rowsOf b "actions").length b

theorem held_add {k : Nat} {id : Int} {seq : Seqn Nat} (h : call k = .add id seq) : held 5 "actions" call (k + 1) =
    boundedAdd 5 (held 5 "actions" call k) (entryOf (Table.wrapId id) (rowsOf seq "actions").length seq) := by
  rw [held, adds_add h, acts_append, toAct_add, queueAfter_add, cap_eq]
  rfl

theorem held_batch {k c : Nat} (h : call k = .batch c) : held 5 "actions" call (k + 1) = held 5 "actions" call k := by
  rw [held, adds_batch h, held]

theorem call0 (j : Nat) : call (4 * j) = .add 7 a := by simp [call]
theorem call1 (j : Nat) : call (4 * j + 1) = .batch 2 := by
  unfold call
  rw [if_neg (by omega), if_neg (by omega)]
theorem call2 (j : Nat) : call (4 * j + 2) = .add 8 b := by
  unfold call
  rw [if_neg (by omega), if_pos (by omega)]
theorem call3 (j : Nat) : call (4 * j + 3) = .batch 2 := by
  unfold call
  rw [if_neg (by omega), if_neg (by omega)]

theorem helds (j : Nat) : (held 5 "actions" call (4 * j) = [] ∨ held 5 "actions" call (4 * j) = [eb]) ∧ held 5 "actions" call (4 * j + 1) = [ea] ∧
    held 5 "actions" call (4 * j + 2) = [ea] ∧ held 5 "actions" call (4 * j + 3) = [eb] := by
  have hrest : ∀ j, (held 5 "actions" call (4 * j) = [] ∨ held 5 "actions" call (4 * j) = [eb]) → held 5 "actions" call (4 * j + 1) = [ea] ∧
    held 5 "actions" call (4 * j + 2) = [ea] ∧ held 5 "actions" call (4 * j + 3) = [eb] := by
    intro j h
    have h1 : held 5 "actions" call (4 * j + 1) = [ea] := by
      rw [held_add (call0 j)]
      rcases h with h | h <;> rw [h] <;> rfl
    have h2 : held 5 "actions" call (4 * j + 2) = [ea] := by rw [held_batch (call1 j), h1]
    refine ⟨h1, h2, ?_⟩
    rw [held_add (call2 j), h2]
    rfl
  induction j with
  | zero => exact ⟨.inl rfl, hrest 0 (.inl rfl)⟩
  | succ j ih =>
    have : held 5 "actions" call (4 * (j + 1)) = [eb] := by
      rw [show 4 * (j + 1) = 4 * j + 3 + 1 by ring, held_batch (call3 j)]
      exact ih.2.2.2
    exact ⟨.inr this, hrest _ (.inr this)⟩

theorem episode {x y z o p q r : Nat} (id : Int) : EpisodeOk ExW.cols (entryOf id 3 (ExW.ep [x, y, z] [o, p, q, r])) := by
  intro c hc
  simp only [ExW.cols, List.mem_cons, List.not_mem_nil, or_false] at hc
  rcases hc with rfl | rfl | rfl | rfl | rfl | rfl <;> simp [entryOf, rowsOf, ExW.ep, Dict.get?]

theorem proper : Proper ExW.cols 5 "actions" ExW.t0 1 call := by
  constructor
  · intro k id seq h
    obtain ⟨j, hj | hj | hj | hj⟩ : ∃ j, k = 4 * j ∨ k = 4 * j + 1 ∨ k = 4 * j + 2 ∨ k = 4 * j + 3 := ⟨k / 4, by omega⟩ <;> subst hj
    · rw [call0] at h
      cases h
      refine ⟨⟨by decide +kernel, by decide +kernel, by decide +kernel⟩, ?_, by decide +kernel, ⟨_, rfl, by decide +kernel, by decide +kernel⟩, episode _⟩
      rcases (helds j).1 with h | h <;> rw [h] <;> decide +kernel
    · rw [call1] at h; cases h
    · rw [call2] at h
      cases h
      refine ⟨⟨by decide +kernel, by decide +kernel, by decide +kernel⟩, ?_, by decide +kernel, ⟨_, rfl, by decide +kernel, by decide +kernel⟩, episode _⟩
      rw [(helds j).2.2.1]; decide +kernel
    · rw [call3] at h; cases h
  · intro k c h
    obtain ⟨j, hj | hj | hj | hj⟩ : ∃ j, k = 4 * j ∨ k = 4 * j + 1 ∨ k = 4 * j + 2 ∨ k = 4 * j + 3 := ⟨k / 4, by omega⟩ <;> subst hj
    · rw [call0] at h; cases h
    · rw [(helds j).2.1]; simp
    · rw [call2] at h; cases h
    · rw [(helds j).2.2.2]; simp

theorem often (r : Nat) : ∃ᶠ k in atTop, ∃ j, k = 4 * j + r :=
  frequently_atTop.2 fun N => ⟨4 * N + r, by omega, N, rfl⟩

/-- Each of the six transitions is drawn infinitely often. -/
example (junk : Nat → String → Nat → Cell Nat) : ∀ᵐ x ∂generators, ∃ batches : Nat → Dict String (List (Cell Nat)),
    (∀ k, ∃ t, run 1 x.1 x.2 junk ExW.t0 call k = .ok (t, (drawn call k).sum, (List.range (drawn call k).length).map batches)) ∧
    ∀ o < 3, ∀ e, e = ea ∨ e = eb → ∃ᶠ j in atTop, ∃ i < 2, part ExW.t0.columns 1 (batches j) i = shown ExW.t0.columns e o 1 := by
  filter_upwards [C173 ExW.created (f := {}) (by decide +kernel) (s := _) rfl ExW.targeted Nat.one_pos proper junk (ι := Fin 3 × Bool)
    (P := fun i _ d => d = shown ExW.t0.columns (if i.2 then ea else eb) i.1 1) (fun i => by
      obtain ⟨o, w⟩ := i
      have ho : (o : Nat) + 1 ≤ 3 := o.2
      cases w
      · exact (often 3).mono fun k ⟨j, hj⟩ => ⟨2, by decide, by rw [hj, call3], eb, by rw [hj, (helds j).2.2.2]; simp, o, ho, rfl⟩
      · exact (often 1).mono fun k ⟨j, hj⟩ => ⟨2, by decide, by rw [hj, call1], ea, by rw [hj, (helds j).2.1]; simp, o, ho, rfl⟩)] with x hx
  obtain ⟨batches, h1, -, h3⟩ := hx
  have htwo : ∀ k c, call k = .batch c → c = 2 := by
    intro k c h
    unfold call at h
    split at h
    · cases h
    · split at h
      · cases h
      · cases h; rfl
  refine ⟨batches, h1, fun o ho e he => ?_⟩
  rcases he with rfl | rfl
  · exact (h3 (⟨o, ho⟩, true)).mono fun j ⟨k, c, hk, _, i, hi, hd⟩ => ⟨i, by rw [← htwo k c hk]; exact hi, hd⟩
  · exact (h3 (⟨o, ho⟩, false)).mono fun j ⟨k, c, hk, _, i, hi, hd⟩ => ⟨i, by rw [← htwo k c hk]; exact hi, hd⟩

theorem reads (e : Spec.Entry Nat) (s x : Nat) (l : List Nat) (hx : (e.rows "obs").drop s = x :: l) :
    DqnMemory.Ex.read (shown ExW.t0.columns e s 1) = rowOf Dqn.Ex.env (DqnMemory.Ex.code x).1 (DqnMemory.Ex.code x).2 := by
  have : ExW.t0.columns = ExW.t2.columns := by decide +kernel
  rw [this]
  exact DqnMemory.Ex.reads e s x l hx

/-- The memory never has more than one of the two episodes, and the values are learned: action 0 in the first observation is worth 1/4. -/
example (junk : Nat → String → Nat → Cell Nat) : ∀ᵐ w ∂generators, ∃ learner : Nat → Learner 2 1,
    (∀ k, ∃ t outs, run 1 w.1 w.2 junk ExW.t0 call k = .ok (t, (drawn call k).sum, outs) ∧
      train DqnRun.Ex.setup (outs.map (batchOf ExW.t0.columns 2 DqnMemory.Ex.read)) DqnRun.Ex.start = .ok (learner k)) ∧
    Tendsto (fun k => (learner k).net.value (0, 0)) atTop (𝓝 (1 / 4)) := by
  have htwo : ∀ k c, call k = .batch c → c = 2 := by
    intro k c h
    unfold call at h
    split at h
    · cases h
    · split at h
      · cases h
      · cases h; rfl
  filter_upwards [C173_dqn ExW.created (f := {}) (by decide +kernel) (s := _) rfl ExW.targeted proper junk (count := 2) (by decide) htwo
    ((often 1).mono fun k ⟨j, hj⟩ => by rw [hj, call1]) Dqn.Ex.env DqnRun.Ex.usual
    (show DqnRun.Ex.start.target = table (fun (_ : Fin 2) (_ : Fin 2) => (-5 : ℝ)) from rfl) (read := DqnMemory.Ex.read) (by
      intro k h ep hep i hi
      have hor : ep = ea ∨ ep = eb := by
        obtain ⟨j, hj | hj | hj | hj⟩ : ∃ j, k = 4 * j ∨ k = 4 * j + 1 ∨ k = 4 * j + 2 ∨ k = 4 * j + 3 := ⟨k / 4, by omega⟩ <;> subst hj
        · rw [call0] at h; cases h
        · rw [(helds j).2.1] at hep; left; simpa using hep
        · rw [call2] at h; cases h
        · rw [(helds j).2.2.2] at hep; right; simpa using hep
      rcases hor with rfl | rfl
      · have hi' : i < 3 := hi
        interval_cases i
        · exact ⟨_, _, reads _ 0 1 [2, 3, 9] rfl⟩
        · exact ⟨_, _, reads _ 1 2 [3, 9] rfl⟩
        · exact ⟨_, _, reads _ 2 3 [9] rfl⟩
      · have hi' : i < 3 := hi
        interval_cases i
        · exact ⟨_, _, reads _ 0 4 [5, 6, 7] rfl⟩
        · exact ⟨_, _, reads _ 1 5 [6, 7] rfl⟩
        · exact ⟨_, _, reads _ 2 6 [7] rfl⟩) (by
      intro s a
      have ha : ∀ j, ea ∈ held 5 "actions" call (4 * j + 1) := fun j => by rw [(helds j).2.1]; simp
      have hb : ∀ j, eb ∈ held 5 "actions" call (4 * j + 3) := fun j => by rw [(helds j).2.2.2]; simp
      fin_cases s <;> fin_cases a
      · exact (often 1).mono fun k ⟨j, hj⟩ => by subst hj; exact ⟨call1 j, ea, ha j, 0, by decide, reads ea 0 1 [2, 3, 9] rfl⟩
      · exact (often 1).mono fun k ⟨j, hj⟩ => by subst hj; exact ⟨call1 j, ea, ha j, 1, by decide, reads ea 1 2 [3, 9] rfl⟩
      · exact (often 3).mono fun k ⟨j, hj⟩ => by subst hj; exact ⟨call3 j, eb, hb j, 0, by decide, reads eb 0 4 [5, 6, 7] rfl⟩
      · exact (often 3).mono fun k ⟨j, hj⟩ => by subst hj; exact ⟨call3 j, eb, hb j, 1, by decide, reads eb 1 5 [6, 7] rfl⟩)] with w hw
  obtain ⟨learner, tt, h1, h2⟩ := hw
  have he : Dqn.Ex.env.scale DqnRun.Ex.setup.scale = Dqn.Ex.env := by simp [Env.scale, DqnRun.Ex.setup]
  rw [he] at h2
  refine ⟨learner, fun k => ?_, (h2 0 0 _ ?_).1⟩
  · obtain ⟨t, outs, g1, g2, -⟩ := h1 k
    exact ⟨t, outs, g1, g2⟩
  · simpa [Dqn.Ex.best, DqnRun.Ex.setup] using Dqn.fixed_best Dqn.Ex.env (g := 1 / 2) (by norm_num) (by norm_num) Dqn.Ex.fixed 0 0

end Ex

end MemoryDraws

end Verif.Props
