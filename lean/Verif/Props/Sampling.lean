import Verif.Props.Agree
import Verif.Lemmas.Short

/-!
# What `sample` delivers: C09 - C12, C14
-/

namespace Verif.Props

open Verif Spec

variable {V : Type u}

/-- The table holds the episode `e`: its length, and its rows in every physical column. -/
def Holds (t : Table V) (e : Entry V) : Prop :=
  t.lengths.get? e.id = some e.len ∧
  ∀ name d, t.stored name = some d → d.get? e.id = some (e.rows name)

theorem holds_of_mem {columns : List Column} {maxlen : Int} {lk : String} {ops : List (Op V)}
    {t : Table V} {q : List (Entry V)} (h : Hist columns maxlen lk ops t q) {e : Entry V} (he : e ∈ q) :
    Holds t e := by
  constructor
  · rw [h.inv.lengths]
    exact Dict.get?_of_mem (by simpa [Dict.keys, lensOf, Function.comp_def] using h.inv.nodup)
      (List.mem_map.2 ⟨e, he, rfl⟩)
  · intro name d hd
    rw [h.inv.stored_eq hd]
    exact get?_map_entries h.inv.nodup he (fun e => e.rows name)

theorem long_of_stored {columns : List Column} {maxlen : Int} {lk : String} {ops : List (Op V)}
    {t : Table V} {q : List (Entry V)} (h : Hist columns maxlen lk ops t q) {n : Nat}
    (hlong : ∀ p ∈ t.lengths, n ≤ p.2) : ∀ e ∈ q, n ≤ e.len := by
  intro e he
  apply hlong (e.id, e.len)
  rw [h.inv.lengths]
  exact List.mem_map.2 ⟨e, he, rfl⟩

/-! ## C09 -/

/-- C09: a batch consists of `count` windows, each inside one stored episode; every column of the
table is there, and every column shows the same windows. Whatever the draws, the sampler, and the old
contents of the work buffers (`t.temp`, `junk`) are. -/
theorem C09_windows_are_genuine {columns : List Column} {maxlen : Int} {lk : String}
    {t0 t t' : Table V} {ops : List (Op V)} (hc : Created columns maxlen lk t0) (hr : Run t0 ops t)
    (hw : WellTargeted columns) (hep : ∀ e ∈ added (acts lk ops), EpisodeOk columns e)
    {count n : Nat} (hn : 0 < n) (hlong : ∀ p ∈ t.lengths, n ≤ p.2) {c r : Nat → Nat}
    {junk : String → Nat → Cell V} {out : Dict String (List (Cell V))}
    (hs : Table.sample count n c r junk t = (t', .ok out)) :
    ∃ ws : List (Entry V × Nat), ws.length = count ∧
      (∀ w ∈ ws, w.1 ∈ added (acts lk ops) ∧ Holds t w.1 ∧ w.2 + n ≤ w.1.len) ∧
      out.keys = t.columns.keys ∧
      ∀ name kind, (name, kind) ∈ t.columns →
        out.get? name = some (ws.flatMap fun w => windowOf name kind w.1 w.2 n) := by
  obtain ⟨q, h⟩ := run_hist hc hr
  rcases sample_batch h hw (fun e he => hep e (h.sub.subset he)) hn (long_of_stored h hlong) hs with
    ⟨e, s, _, h2⟩ | ⟨ws, out', h1, h2, h3, h4, h5⟩
  · cases h2
  · cases h1
    exact ⟨ws, h2, fun w hw' => ⟨h.sub.subset (h3 w hw').1, holds_of_mem h (h3 w hw').1, (h3 w hw').2⟩,
      h4, h5⟩

/-- The windows of a batch, with what each column shows at a given place. -/
theorem batch_at {columns : List Column} {maxlen : Int} {lk : String}
    {t0 t t' : Table V} {ops : List (Op V)} (hc : Created columns maxlen lk t0) (hr : Run t0 ops t)
    (hw : WellTargeted columns) (hep : ∀ e ∈ added (acts lk ops), EpisodeOk columns e)
    {count n : Nat} (hn : 0 < n) (hlong : ∀ p ∈ t.lengths, n ≤ p.2) {c r : Nat → Nat}
    {junk : String → Nat → Cell V} {out : Dict String (List (Cell V))}
    (hs : Table.sample count n c r junk t = (t', .ok out)) :
    ∃ ws : List (Entry V × Nat), ws.length = count ∧
      (∀ w ∈ ws, w.1 ∈ added (acts lk ops) ∧ Holds t w.1 ∧ w.2 + n ≤ w.1.len) ∧
      ∀ name kind, (name, kind) ∈ t.columns → ∃ col, out.get? name = some col ∧
        col.length = count * rowsPerWindow kind n ∧
        ∀ k w, ws[k]? = some w → HasRows name kind w.1 w.2 n ∧ ∀ i, i < rowsPerWindow kind n →
          col[k * rowsPerWindow kind n + i]? = (windowOf name kind w.1 w.2 n)[i]? := by
  obtain ⟨ws, h1, h2, _, h4⟩ := C09_windows_are_genuine hc hr hw hep hn hlong hs
  refine ⟨ws, h1, h2, ?_⟩
  intro name kind hm
  obtain ⟨q, h⟩ := run_hist hc hr
  have hm' : (name, kind) ∈ columns.map fun c => (c.name, c.kind) := by
    rw [h.columns] at hm
    rcases mem_update _ _ _ hm with hm | hm
    · simp at hm
    · exact hm
  have hrows : ∀ w ∈ ws, HasRows name kind w.1 w.2 n := fun w hwm =>
    EpisodeOk.at (hep w.1 (h2 w hwm).1) hm' (h2 w hwm).2.2
  have hlen : ∀ w ∈ ws, (windowOf name kind w.1 w.2 n).length = rowsPerWindow kind n :=
    fun w hwm => windowOf_length (hrows w hwm)
  refine ⟨_, h4 name kind hm, ?_, ?_⟩
  · rw [flatMap_block_length hlen, h1]
  · intro k w hk
    refine ⟨hrows w (List.mem_of_getElem? hk), fun i hi => ?_⟩
    rw [flatMap_block hlen hi, hk]
    rfl

theorem rowsFrom_get (rows : List V) (s : Nat) {n i : Nat} (hi : i < n) :
    (rowsFrom rows s n)[i]? = rows[s + i]? := by
  simp [rowsFrom, hi]

/-- C09 for one physical column, row by row: there are `count * n` rows, and row `k * n + i` is row
`s + i` of the stored episode `e`, where `e` and `s` depend on `k` only, not on the column. -/
theorem C09_rows {columns : List Column} {maxlen : Int} {lk : String}
    {t0 t t' : Table V} {ops : List (Op V)} (hc : Created columns maxlen lk t0) (hr : Run t0 ops t)
    (hw : WellTargeted columns) (hep : ∀ e ∈ added (acts lk ops), EpisodeOk columns e)
    {count n : Nat} (hn : 0 < n) (hlong : ∀ p ∈ t.lengths, n ≤ p.2) {c r : Nat → Nat}
    {junk : String → Nat → Cell V} {out : Dict String (List (Cell V))}
    (hs : Table.sample count n c r junk t = (t', .ok out)) :
    ∃ ws : List (Entry V × Nat), ws.length = count ∧ ∀ name, (name, ColKind.plain) ∈ t.columns →
      ∃ col, out.get? name = some col ∧ col.length = count * n ∧
        ∀ k e s, ws[k]? = some (e, s) → Holds t e ∧ s + n ≤ e.len ∧ ∀ i, i < n →
          ∃ v, (e.rows name)[s + i]? = some v ∧ col[k * n + i]? = some (.row v) := by
  obtain ⟨ws, h1, h2, h3⟩ := batch_at hc hr hw hep hn hlong hs
  refine ⟨ws, h1, fun name hm => ?_⟩
  obtain ⟨col, h4, h5, h6⟩ := h3 name _ hm
  refine ⟨col, h4, h5, fun k e s hk => ?_⟩
  obtain ⟨_, h8, h9⟩ := h2 _ (List.mem_of_getElem? hk)
  obtain ⟨hrows, h7⟩ := h6 k _ hk
  refine ⟨h8, h9, fun i hi => ?_⟩
  simp only [HasRows] at hrows
  refine ⟨(e.rows name)[s + i]'(by omega), by rw [List.getElem?_eq_getElem], ?_⟩
  have := h7 i hi
  simp only [rowsPerWindow] at this
  rw [this]
  simp only [windowOf, List.getElem?_map, rowsFrom_get _ _ hi]
  rw [List.getElem?_eq_getElem (by omega)]
  rfl

/-- C09 (liveness): sampling from a non-empty memory whose episodes are long enough succeeds for
every draw. -/
theorem C09_sample_succeeds {columns : List Column} {maxlen : Int} {lk : String}
    {t0 t : Table V} {ops : List (Op V)} (hc : Created columns maxlen lk t0) (hr : Run t0 ops t)
    (hw : WellTargeted columns) (hep : ∀ e ∈ added (acts lk ops), EpisodeOk columns e)
    {n : Nat} (hn : 0 < n) (hne : t.lengths ≠ []) (hlong : ∀ p ∈ t.lengths, n ≤ p.2)
    (hfit : ∀ id ∈ t.lengths.keys, -2^63 ≤ id ∧ id < 2^63) (count : Nat) (c r : Nat → Nat)
    (junk : String → Nat → Cell V) :
    ∃ t' out, Table.sample count n c r junk t = (t', .ok out) := by
  obtain ⟨q, h⟩ := run_hist hc hr
  obtain ⟨s', pts, hp⟩ := Strategy.sample_succeeds (s := t.sampler) (l := t.lengths)
    (by rw [h.inv.lengths]; simpa [Dict.keys, lensOf, Function.comp_def] using h.inv.nodup)
    (by rw [h.inv.lengths]; exact h.inv.sampler) hn hne hlong
    (by intro id hid; simpa [fitsInt64] using hfit id hid) count c r
  rcases sample_batch h hw (fun e he => hep e (h.sub.subset he)) hn (long_of_stored h hlong)
    (rfl : Table.sample count n c r junk t = (_, _)) with ⟨e, s, h1, _⟩ | ⟨ws, out, h1, _⟩
  · rw [hp] at h1; simp at h1
  · exact ⟨_, out, Prod.ext rfl h1⟩

/-! ## C10 -/

/-- C10: row `j` of the next-element column is the row that follows row `j` of the target column in the
same stored episode. -/
theorem C10_next_is_following_row {columns : List Column} {maxlen : Int} {lk : String}
    {t0 t t' : Table V} {ops : List (Op V)} (hc : Created columns maxlen lk t0) (hr : Run t0 ops t)
    (hw : WellTargeted columns) (hep : ∀ e ∈ added (acts lk ops), EpisodeOk columns e)
    {count n : Nat} (hn : 0 < n) (hlong : ∀ p ∈ t.lengths, n ≤ p.2) {c r : Nat → Nat}
    {junk : String → Nat → Cell V} {out : Dict String (List (Cell V))}
    (hs : Table.sample count n c r junk t = (t', .ok out))
    {obs nxt : String} (ho : (obs, ColKind.plain) ∈ t.columns)
    (hx : (nxt, ColKind.virt .next obs) ∈ t.columns) :
    ∃ o x, out.get? obs = some o ∧ out.get? nxt = some x ∧ o.length = count * n ∧
      x.length = count * n ∧
      ∀ j, j < count * n → ∃ e i v w, Holds t e ∧ i < e.len ∧
        (e.rows obs)[i]? = some v ∧ (e.rows obs)[i + 1]? = some w ∧
        o[j]? = some (.row v) ∧ x[j]? = some (.row w) := by
  obtain ⟨ws, h1, h2, h3⟩ := batch_at hc hr hw hep hn hlong hs
  obtain ⟨o, h4, h5, h6⟩ := h3 _ _ ho
  obtain ⟨x, h4', h5', h6'⟩ := h3 _ _ hx
  refine ⟨o, x, h4, h4', h5, h5', fun j hj => ?_⟩
  have hk : j / n < ws.length := by rw [h1]; exact Nat.div_lt_of_lt_mul (by rw [Nat.mul_comm]; exact hj)
  have hi : j % n < n := Nat.mod_lt _ hn
  have hjk : j / n * n + j % n = j := by rw [Nat.mul_comm]; exact Nat.div_add_mod j n
  rcases hes : ws[j / n] with ⟨e, s⟩
  have hget : ws[j / n]? = some (e, s) := by rw [List.getElem?_eq_getElem hk, hes]
  obtain ⟨_, h8, h9⟩ := h2 _ (List.mem_of_getElem? hget)
  obtain ⟨_, h7⟩ := h6 _ _ hget
  obtain ⟨hrows, h7'⟩ := h6' _ _ hget
  simp only [HasRows] at hrows
  simp only at h8 h9
  have a := h7 (j % n) hi
  have b := h7' (j % n) hi
  simp only [rowsPerWindow, hjk, windowOf, List.getElem?_map, rowsFrom_get _ _ hi] at a b
  refine ⟨e, s + j % n, (e.rows obs)[s + j % n]'(by omega), (e.rows obs)[s + j % n + 1]'(by omega), h8,
    by omega, by rw [List.getElem?_eq_getElem], by rw [List.getElem?_eq_getElem], ?_, ?_⟩
  · rw [a, List.getElem?_eq_getElem (by omega)]; rfl
  · rw [b, show s + 1 + j % n = s + j % n + 1 by omega, List.getElem?_eq_getElem (by omega)]; rfl

/-! ## C11 -/

/-- C11: in the n-step layout there is one next row per window, the one that follows the window's last
row in the same stored episode; the window's rows are the `n` before it. -/
theorem C11_nstep_next {columns : List Column} {maxlen : Int} {lk : String}
    {t0 t t' : Table V} {ops : List (Op V)} (hc : Created columns maxlen lk t0) (hr : Run t0 ops t)
    (hw : WellTargeted columns) (hep : ∀ e ∈ added (acts lk ops), EpisodeOk columns e)
    {count n : Nat} (hn : 0 < n) (hlong : ∀ p ∈ t.lengths, n ≤ p.2) {c r : Nat → Nat}
    {junk : String → Nat → Cell V} {out : Dict String (List (Cell V))}
    (hs : Table.sample count n c r junk t = (t', .ok out))
    {obs nxt : String} (ho : (obs, ColKind.plain) ∈ t.columns)
    (hx : (nxt, ColKind.virt .nextLast obs) ∈ t.columns) :
    ∃ o x, out.get? obs = some o ∧ out.get? nxt = some x ∧ o.length = count * n ∧
      x.length = count ∧
      ∀ k, k < count → ∃ e s w, Holds t e ∧ s + n ≤ e.len ∧
        (∀ i, i < n → ∃ v, (e.rows obs)[s + i]? = some v ∧ o[k * n + i]? = some (.row v)) ∧
        (e.rows obs)[s + n]? = some w ∧ x[k]? = some (.row w) := by
  obtain ⟨ws, h1, h2, h3⟩ := batch_at hc hr hw hep hn hlong hs
  obtain ⟨o, h4, h5, h6⟩ := h3 _ _ ho
  obtain ⟨x, h4', h5', h6'⟩ := h3 _ _ hx
  refine ⟨o, x, h4, h4', h5, by simpa [rowsPerWindow] using h5', fun k hk => ?_⟩
  rw [← h1] at hk
  rcases hes : ws[k] with ⟨e, s⟩
  have hget : ws[k]? = some (e, s) := by rw [List.getElem?_eq_getElem hk, hes]
  obtain ⟨_, h8, h9⟩ := h2 _ (List.mem_of_getElem? hget)
  obtain ⟨_, h7⟩ := h6 _ _ hget
  obtain ⟨hrows, h7'⟩ := h6' _ _ hget
  simp only [HasRows] at hrows
  simp only at h8 h9
  refine ⟨e, s, (e.rows obs)[s + n]'(by omega), h8, h9, fun i hi => ?_, by rw [List.getElem?_eq_getElem], ?_⟩
  · have a := h7 i hi
    simp only [rowsPerWindow, windowOf, List.getElem?_map, rowsFrom_get _ _ hi] at a
    refine ⟨(e.rows obs)[s + i]'(by omega), by rw [List.getElem?_eq_getElem], ?_⟩
    rw [a, List.getElem?_eq_getElem (by omega)]; rfl
  · have b := h7' 0 (by simp [rowsPerWindow])
    simp only [rowsPerWindow, windowOf, List.getElem?_map, rowsFrom_get _ _ Nat.one_pos,
      Nat.mul_one, Nat.add_zero] at b
    rw [b, List.getElem?_eq_getElem (by omega)]; rfl

/-! ## C12 -/

/-- C12: `done` is true, and `mask` is 0, exactly at the last transition of the stored episode. `tgt` is
the column the flags are computed from (`actions` in the builders), which has one row per transition. -/
theorem C12_done_mask_final {columns : List Column} {maxlen : Int} {lk : String}
    {t0 t t' : Table V} {ops : List (Op V)} (hc : Created columns maxlen lk t0) (hr : Run t0 ops t)
    (hw : WellTargeted columns) (hep : ∀ e ∈ added (acts lk ops), EpisodeOk columns e)
    {count n : Nat} (hn : 0 < n) (hlong : ∀ p ∈ t.lengths, n ≤ p.2) {c r : Nat → Nat}
    {junk : String → Nat → Cell V} {out : Dict String (List (Cell V))}
    (hs : Table.sample count n c r junk t = (t', .ok out))
    {dn mk tgt : String} (htgt : ∀ e ∈ added (acts lk ops), (e.rows tgt).length = e.len)
    (hd : (dn, ColKind.virt .dones tgt) ∈ t.columns) (hm : (mk, ColKind.virt .masks tgt) ∈ t.columns) :
    ∃ (ws : List (Entry V × Nat)) (d m : List (Cell V)), ws.length = count ∧ out.get? dn = some d ∧ out.get? mk = some m ∧
      d.length = count * n ∧ m.length = count * n ∧
      ∀ k e s, ws[k]? = some (e, s) → Holds t e ∧ s + n ≤ e.len ∧
        (∀ name, (name, ColKind.plain) ∈ t.columns → ∃ col, out.get? name = some col ∧
          ∀ i, i < n → ∃ v, (e.rows name)[s + i]? = some v ∧ col[k * n + i]? = some (.row v)) ∧
        ∀ i, i < n →
          d[k * n + i]? = some (.bit (decide (s + i + 1 = e.len))) ∧
          m[k * n + i]? = some (.bit (decide (s + i + 1 ≠ e.len))) := by
  obtain ⟨ws, h1, h2, h3⟩ := batch_at hc hr hw hep hn hlong hs
  obtain ⟨d, h4, h5, h6⟩ := h3 _ _ hd
  obtain ⟨m, h4', h5', h6'⟩ := h3 _ _ hm
  refine ⟨ws, d, m, h1, h4, h4', h5, h5', fun k e s hk => ?_⟩
  obtain ⟨hadd, h8, h9⟩ := h2 _ (List.mem_of_getElem? hk)
  simp only at hadd h8 h9
  refine ⟨h8, h9, fun name hname => ?_, fun i hi => ?_⟩
  · obtain ⟨col, c4, _, c6⟩ := h3 _ _ hname
    refine ⟨col, c4, fun i hi => ?_⟩
    obtain ⟨hrows, c7⟩ := c6 _ _ hk
    simp only [HasRows] at hrows
    have a := c7 i hi
    simp only [rowsPerWindow, windowOf, List.getElem?_map, rowsFrom_get _ _ hi] at a
    refine ⟨(e.rows name)[s + i]'(by omega), by rw [List.getElem?_eq_getElem], ?_⟩
    rw [a, List.getElem?_eq_getElem (by omega)]; rfl
  · have a := (h6 _ _ hk).2 i hi
    have b := (h6' _ _ hk).2 i hi
    simp only [rowsPerWindow, windowOf, List.getElem?_map, List.getElem?_range hi, Option.map_some,
      htgt e hadd, isLast] at a b
    refine ⟨?_, ?_⟩
    · rw [a]; congr 2
    · rw [b]; congr 2
      by_cases hx : s + i + 1 = e.len <;> simp [hx]

/-! ## C14

The property is false: numpy broadcasts a single row over the window. -/

namespace ExShort

def cols : List Column := [⟨"actions", .plain⟩, ⟨"masks", .virt .masks "actions"⟩]
def t0 : Table Nat := (Table.new cols 5 (.uniform {}) (.fifo {}) "actions").1
def t1 : Table Nat := (Table.addSequence [] 7 [("actions", [10])] t0).1

end ExShort

/-- C14 is false: the only stored sequence has the single row 10; asking for windows of length 3 gives
10, 10, 10 without an error. -/
theorem C14_false : ∃ (columns : List Column) (t0 t t' : Table Nat) (ops : List (Op Nat))
    (out : Dict String (List (Cell Nat))),
    Created columns 5 "actions" t0 ∧ Run t0 ops t ∧ t.stored "actions" = some [(7, [10])] ∧
    Table.sample 1 3 id id (fun _ _ => .bit false) t = (t', .ok out) ∧
    out.get? "actions" = some [.row 10, .row 10, .row 10] :=
  ⟨ExShort.cols, ExShort.t0, ExShort.t1, _, [.add 7 [("actions", [10])] []],
    [("actions", [.row 10, .row 10, .row 10]), ("masks", [.bit false, .bit true, .bit true])],
    ⟨by decide, _, _, .uniform, .fifo true true, Prod.ext rfl (by decide +kernel)⟩,
    Run.step (ops := []) Run.nil _ _ _ ⟨by decide +kernel, by decide +kernel, by decide +kernel⟩
      (by decide +kernel) (by decide +kernel),
    by decide +kernel, Prod.ext rfl (by decide +kernel), by decide +kernel⟩

/-- A slice of one row that was asked to have at least two has been cut off at the end of the sequence. -/
theorem last_of_cut {l : List V} {a : Int} {n len : Nat} {x : V} (hn : 2 ≤ n) (hx : pySlice l a (a + n) = [x])
    (h : 0 ≤ a ∨ a ≤ 0 ∧ (len : Int) + 1 ≤ a + n ∧ l.length ≤ len + 1) : l.getLast? = some x := by
  have hlen := congrArg List.length hx
  have hget := congrArg (fun m : List V => m[0]?) hx
  simp only [pySlice, List.length_take, List.length_drop, List.length_singleton] at hlen
  simp only [pySlice, List.getElem?_cons_zero] at hget
  rw [List.getElem?_take_of_lt (by omega), List.getElem?_drop, Nat.add_zero] at hget
  rw [List.getLast?_eq_getElem?, ← hget]
  congr 1
  unfold clampIdx at hlen ⊢
  split at hlen <;> split at hlen <;> split <;> omega

/-- C14, the part that holds: whatever the lengths, a block of `n` rows delivered for a physical column
is either `n` consecutive rows of one stored sequence, or `n` copies of the last row of it (the broadcast);
and it is genuine whenever the sequence is at least `n` long. A column has as many rows as the sequence is long, or one more. All columns
use the same sequence. (Full claim: the second case does not occur.) -/
theorem C14_consecutive_or_repeated_partial {columns : List Column} {maxlen : Int} {lk : String}
    {t0 t t' : Table V} {ops : List (Op V)} (hc : Created columns maxlen lk t0) (hr : Run t0 ops t)
    {count n : Nat} {c r : Nat → Nat} {junk : String → Nat → Cell V}
    {out : Dict String (List (Cell V))} (hs : Table.sample count n c r junk t = (t', .ok out)) :
    ∃ ids : List Int, ids.length = count ∧ ∀ name, (name, ColKind.plain) ∈ t.columns →
      ∃ (d : Dict Int (List V)) (blocks : List (List (Cell V))), t.stored name = some d ∧
        out.get? name = some blocks.flatten ∧ blocks.length = count ∧
        ∀ (k : Nat) (id : Int), ids[k]? = some id → ∃ rows b len, d.get? id = some rows ∧ t.lengths.get? id = some len ∧
          blocks[k]? = some b ∧ b.length = n ∧
          ((∃ win, win <:+: rows ∧ b = win.map .row) ∨
           ∃ x ∈ rows, b = List.replicate n (.row x) ∧ 2 ≤ n ∧ (len ≤ rows.length → len < n) ∧
              (rows.length ≤ len + 1 → rows.getLast? = some x)) := by
  obtain ⟨q, h⟩ := run_hist hc hr
  obtain ⟨pts, h1, h2, h3⟩ := sample_shape h.inv hs
  refine ⟨pts.map Prod.fst, by simp [h1], fun name hm => ?_⟩
  obtain ⟨blocks, h4, h5, h6⟩ := h3 name hm
  have hm' := hm
  rw [← h.inv.shape] at hm'
  obtain ⟨⟨n0, st⟩, hst, heq⟩ := List.mem_map.1 hm'
  injection heq with heq1 heq2
  simp only at heq1 heq2
  subst heq1
  cases st with
  | tag d => simp [Store.kind] at heq2
  | virt k tgt => simp [Store.kind] at heq2
  | plain d =>
    have hd : t.stored n0 = some d := by
      simp only [Table.stored, Dict.get?_of_mem h.inv.names hst]
    refine ⟨d, blocks, hd, h4, h5, fun k id hk => ?_⟩
    rw [List.getElem?_map, Option.map_eq_some_iff] at hk
    obtain ⟨p, hp, rfl⟩ := hk
    obtain ⟨e, he, hid, b, h7, h8, h9⟩ := h6 k p hp
    obtain ⟨len, g1, g2, g3, g4⟩ := h2 p (List.mem_of_getElem? hp)
    refine ⟨e.rows n0, b, len, ?_, by rw [h.inv.lengths, g1], h7, h8, ?_⟩
    · rw [h.inv.stored_eq hd, ← hid]
      exact get?_map_entries h.inv.nodup he (fun e => e.rows n0)
    · rcases h9 with h9 | ⟨x, h9, h10⟩
      · exact Or.inl ⟨_, pySlice_infix _ _ _, h9⟩
      have hin := pySlice_infix (e.rows n0) p.2.1 p.2.2
      rw [g2] at h9 hin
      by_cases hn : 2 ≤ n
      · refine Or.inr ⟨x, hin.subset (by rw [h9]; simp), h10, hn, fun hle => ?_, fun hle => ?_⟩
        · refine Nat.lt_of_not_le fun hlt => ?_
          obtain ⟨g5, g6⟩ := g3 (by omega)
          have hs : p.2.1 = ((p.2.1.toNat : Nat) : Int) := by omega
          rw [hs, pySlice_eq _ _ _ (by omega)] at h9
          have := congrArg List.length h9
          simp only [List.length_take, List.length_drop, List.length_singleton] at this
          omega
        · refine last_of_cut (len := len) hn h9 ?_
          by_cases hlt : len < n
          · exact Or.inr ⟨(g4 (by omega)).1, (g4 (by omega)).2, hle⟩
          · exact Or.inl (g3 (by omega)).1
      · left
        obtain rfl | rfl : n = 0 ∨ n = 1 := by omega
        · exact ⟨[], List.nil_infix, by simpa using h10⟩
        · exact ⟨[x], h9 ▸ hin, h10⟩

/-- C14: whether a window that does not fit is refused is left to chance. The only stored sequence has the two rows 10, 20 and windows of
length 5 are asked for; the uniform sampler draws the offset from 0 and -1. Offset 0 reads two rows and the batch is refused; offset -1 reads
the last row only, which is repeated. -/
theorem C14_chance : ∃ (columns : List Column) (t0 t : Table Nat) (ops : List (Op Nat))
    (out : Dict String (List (Cell Nat))),
    Created columns 5 "actions" t0 ∧ Run t0 ops t ∧ t.stored "actions" = some [(7, [10, 20])] ∧
    (Table.sample 1 5 id (fun _ => 0) (fun _ _ => .bit false) t).2 = .error .valueError ∧
    (Table.sample 1 5 id (fun _ => 1) (fun _ _ => .bit false) t).2 = .ok out ∧
    out.get? "actions" = some [.row 20, .row 20, .row 20, .row 20, .row 20] :=
  ⟨[⟨"actions", .plain⟩], (Table.new [⟨"actions", .plain⟩] 5 (.uniform {}) (.fifo {}) "actions").1,
    (Table.addSequence [] 7 [("actions", [10, 20])] (Table.new [⟨"actions", .plain⟩] 5 (.uniform {}) (.fifo {}) "actions").1).1,
    [.add 7 [("actions", [10, 20])] []], [("actions", List.replicate 5 (.row 20))],
    ⟨by decide, _, _, .uniform, .fifo true true, Prod.ext rfl (by decide +kernel)⟩,
    Run.step (ops := []) Run.nil _ _ _ ⟨by decide +kernel, by decide +kernel, by decide +kernel⟩
      (by decide +kernel) (by decide +kernel),
    by decide +kernel, by decide +kernel, by decide +kernel, by decide +kernel⟩

/-- C14: the FIFO sampler with random offsets refuses to sample a window that does not fit, instead of
broadcasting. -/
theorem C14_fifo_rejects {s : Fifo} {l : Dict Int Nat} (hn : l.keys.Nodup)
    (ht : (Strategy.fifo s).Tracks l) (hopt : s.perEpisode = true ∨ s.randomOffset = true)
    (hne : l ≠ []) {n : Nat} (hshort : ∀ p ∈ l, p.2 < n) {count : Nat} (hcount : 0 < count)
    (r : Nat → Nat) : s.sample count n r = .error .valueError := by
  obtain ⟨h1, h2, _⟩ := ht
  obtain ⟨m, rfl⟩ : ∃ m, count = m + 1 := ⟨count - 1, by omega⟩
  obtain ⟨⟨id, len⟩, rest, hl⟩ := List.exists_cons_of_ne_nil hne
  have hlt := hshort (id, len) (by rw [hl]; simp)
  have hat : s.episodeAt 0 = .ok (id, len) := by
    unfold Fifo.episodeAt
    rw [h1, h2, hl]
    simp [Dict.keys, Dict.get?]
  have hrand : randint0 (r 0) ((len : Int) - n) = .error .valueError := by
    unfold randint0
    rw [if_pos (by simp only at hlt; omega)]
  unfold Fifo.sample
  by_cases hp : s.perEpisode = true
  · simp [hp, Fifo.samplePerEpisode, hat, hrand, bind, Except.bind]
  · have ho : s.randomOffset = true := hopt.resolve_left hp
    simp [hp, ho, Fifo.sampleSeq, hat, Fifo.seqOffset, hrand, bind, Except.bind]

/-! ## The hypotheses can be met -/

namespace ExW

/-- A table with all kinds of virtual columns. -/
def cols : List Column := [⟨"actions", .plain⟩, ⟨"obs", .plain⟩, ⟨"next_obs", .virt .next "obs"⟩,
  ⟨"last_obs", .virt .nextLast "obs"⟩, ⟨"dones", .virt .dones "actions"⟩,
  ⟨"masks", .virt .masks "actions"⟩]

def ep (a : List Nat) (o : List Nat) : Seqn Nat := [("actions", a), ("obs", o)]

def t0 : Table Nat := (Table.new cols 5 (.uniform {}) (.fifo {}) "actions").1
def t1 : Table Nat := (Table.addSequence [] 7 (ep [10, 11] [1, 2, 3]) t0).1
def t2 : Table Nat := (Table.addSequence [] 8 (ep [20, 21, 22] [4, 5, 6, 7]) t1).1

def ops : List (Op Nat) := [.add 7 (ep [10, 11] [1, 2, 3]) [], .add 8 (ep [20, 21, 22] [4, 5, 6, 7]) []]

theorem created : Created cols 5 "actions" t0 :=
  ⟨by decide, _, _, .uniform, .fifo true true, Prod.ext rfl (by decide +kernel)⟩

theorem run : Run t0 ops t2 :=
  Run.step (ops := [_]) (Run.step (ops := []) Run.nil _ _ _
    ⟨by decide +kernel, by decide +kernel, by decide +kernel⟩ (by decide +kernel) (by decide +kernel))
    _ _ _ ⟨by decide +kernel, by decide +kernel, by decide +kernel⟩ (by decide +kernel) (by decide +kernel)

theorem targeted : WellTargeted cols := by
  intro c hc k tgt hk
  simp only [cols, List.mem_cons, List.not_mem_nil, or_false] at hc
  rcases hc with rfl | rfl | rfl | rfl | rfl | rfl <;> simp at hk <;> obtain ⟨rfl, rfl⟩ := hk <;>
    decide +kernel

theorem episodes : ∀ e ∈ added (acts "actions" ops), EpisodeOk cols e := by
  intro e he c hc
  have he' : e = entryOf 7 2 (ep [10, 11] [1, 2, 3]) ∨ e = entryOf 8 3 (ep [20, 21, 22] [4, 5, 6, 7]) := by
    simpa [added, acts, ops, Op.toAct, rowsOf, Dict.get?, ep, Table.wrapId] using he
  simp only [cols, List.mem_cons, List.not_mem_nil, or_false] at hc
  rcases hc with rfl | rfl | rfl | rfl | rfl | rfl <;> rcases he' with rfl | rfl <;>
    simp [entryOf, rowsOf, ep, Dict.get?]

/-- The second window touches the end of the second episode. -/
def out : Dict String (List (Cell Nat)) := [("actions", [.row 10, .row 11, .row 21, .row 22]),
  ("obs", [.row 1, .row 2, .row 5, .row 6]), ("next_obs", [.row 2, .row 3, .row 6, .row 7]),
  ("last_obs", [.row 3, .row 7]), ("dones", [.bit false, .bit true, .bit false, .bit true]),
  ("masks", [.bit true, .bit false, .bit true, .bit false])]

theorem sampled : Table.sample 2 2 id id (fun _ _ => .bit false) t2
    = ((Table.sample 2 2 id id (fun _ _ => .bit false) t2).1, .ok out) :=
  Prod.ext rfl (by decide +kernel)

end ExW

example := C09_windows_are_genuine ExW.created ExW.run ExW.targeted ExW.episodes (by decide)
  (by decide +kernel) ExW.sampled
example := C09_rows ExW.created ExW.run ExW.targeted ExW.episodes (by decide) (by decide +kernel) ExW.sampled
example := C09_sample_succeeds ExW.created ExW.run ExW.targeted ExW.episodes (n := 2) (by decide)
  (by decide +kernel) (by decide +kernel) (by decide +kernel) 3 id id (fun _ _ => .bit true)
example := C10_next_is_following_row ExW.created ExW.run ExW.targeted ExW.episodes (by decide)
  (by decide +kernel) ExW.sampled (obs := "obs") (nxt := "next_obs") (by decide +kernel) (by decide +kernel)
example := C11_nstep_next ExW.created ExW.run ExW.targeted ExW.episodes (by decide)
  (by decide +kernel) ExW.sampled (obs := "obs") (nxt := "last_obs") (by decide +kernel) (by decide +kernel)
example := C12_done_mask_final ExW.created ExW.run ExW.targeted ExW.episodes (by decide)
  (by decide +kernel) ExW.sampled (dn := "dones") (mk := "masks") (tgt := "actions")
  (by
    intro e he
    have he' : e = entryOf 7 2 (ExW.ep [10, 11] [1, 2, 3]) ∨
        e = entryOf 8 3 (ExW.ep [20, 21, 22] [4, 5, 6, 7]) := by
      simpa [added, acts, ExW.ops, Op.toAct, rowsOf, Dict.get?, ExW.ep, Table.wrapId] using he
    rcases he' with rfl | rfl <;> rfl)
  (by decide +kernel) (by decide +kernel)
example := C14_consecutive_or_repeated_partial ExW.created ExW.run ExW.sampled
example := C14_fifo_rejects (s := { ids := [7], lens := [(7, 1)] }) (l := [(7, 1)]) (by decide)
  ⟨rfl, rfl, rfl⟩ (Or.inl rfl) (by simp) (n := 3) (by decide) (count := 2) (by decide) id

end Verif.Props
