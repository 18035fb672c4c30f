import Verif.Lemmas.Sample
import Verif.Lemmas.List

set_option linter.unusedSimpArgs false

namespace Verif

open Dict Spec

variable {V : Type u}

/-! ## The specification on one more action -/

theorem acts_append (k : String) (ops : List (Op V)) (op : Op V) :
    acts k (ops ++ [op]) = acts k ops ++ (op.toAct k).toList := by
  unfold acts
  rw [List.filterMap_append]
  congr 1

theorem queueAfter_add (cap : Int) (as : List (Act V)) (e : Entry V) :
    queueAfter cap (as ++ [.add e]) =
      ((queueAfter cap as).1, boundedAdd (queueAfter cap as).1 (queueAfter cap as).2 e) := by
  simp [queueAfter, List.foldl_append, queueStep]

theorem queueAfter_resize (cap n : Int) (as : List (Act V)) :
    queueAfter cap (as ++ [.resize n]) = (n, (queueAfter cap as).2) := by
  simp [queueAfter, List.foldl_append, queueStep]

theorem added_add (as : List (Act V)) (e : Entry V) : added (as ++ [.add e]) = added as ++ [e] := by
  simp [added, List.filterMap_append]

theorem added_resize (as : List (Act V)) (n : Int) : added (as ++ [.resize n]) = added as := by
  simp [added, List.filterMap_append]

theorem tally_eq (cap : Int) (as : List (Act V)) :
    as.foldl tallyStep (cap, 0, false)
    = ((queueAfter cap as).1, total (added as), everFull cap as) := by
  induction as using snocInduction with
  | nil => rfl
  | snoc as a ih =>
    rw [everFull, List.foldl_append, ih]
    cases a with
    | add e =>
      rw [queueAfter_add, added_add]
      simp [tallyStep]
    | resize n =>
      rw [queueAfter_resize, added_resize]
      simp [tallyStep]

theorem everFull_add (cap : Int) (as : List (Act V)) (e : Entry V) :
    everFull cap (as ++ [.add e]) = (everFull cap as ||
      decide ((queueAfter cap as).1 < (total (added as) : Int) + e.len)) := by
  conv => lhs; unfold everFull
  rw [List.foldl_append, tally_eq]
  rfl

theorem everFull_resize (cap : Int) (as : List (Act V)) (n : Int) :
    everFull cap (as ++ [.resize n]) = everFull cap as := by
  conv => lhs; unfold everFull
  rw [List.foldl_append, tally_eq]
  rfl

theorem lastAdd_add (as : List (Act V)) (e : Entry V) (id : Int) :
    lastAdd (as ++ [.add e]) id = if e.id = id then some e else lastAdd as id := by
  unfold lastAdd
  rw [added_add, List.reverse_append, List.reverse_singleton, List.singleton_append, List.find?_cons]
  by_cases h : e.id = id <;> simp [h]

theorem lastAdd_resize (as : List (Act V)) (n : Int) (id : Int) :
    lastAdd (as ++ [.resize n]) id = lastAdd as id := by
  unfold lastAdd; rw [added_resize]

/-! ## The invariant of histories -/

/-- Everything we know after the history `ops` from a table with capacity `maxlen`. -/
structure Hist (cols : List Column) (cap0 : Int) (lk : String) (ops : List (Op V))
    (t : Table V) (q : List (Entry V)) : Prop where
  inv : Inv t q
  len : ∀ e ∈ q, e.len = (e.rows lk).length
  cap : (total q : Int) ≤ t.maxlen
  key : t.lengthKey = lk
  columns : t.columns = Dict.ofPairs (cols.map fun c => (c.name, c.kind))
  maxlen : t.maxlen = (queueAfter cap0 (acts lk ops)).1
  sub : q.Sublist (added (acts lk ops))
  last : ∀ e ∈ q, lastAdd (acts lk ops) e.id = some e
  full : t.filled = everFull cap0 (acts lk ops)
  notFull : t.filled = false → q = added (acts lk ops)
  newest : ∀ e, (added (acts lk ops)).getLast? = some e → q.getLast? = some e

theorem sublist_total {q r : List (Entry V)} (h : q.Sublist r) : total q ≤ total r := by
  induction h with
  | slnil => exact Nat.le_refl _
  | cons a _ ih => simp only [total_cons]; omega
  | cons_cons a _ ih => simp only [total_cons]; omega

theorem toAct_add (k : String) (id : Int) (seq : Seqn V) (draws : List Nat) :
    ((Op.add id seq draws).toAct k).toList
      = [Act.add (entryOf (Table.wrapId id) (rowsOf seq k).length seq)] := rfl

theorem Hist.add {columns : List Column} {maxlen : Int} {lk : String} {ops : List (Op V)}
    {t t' : Table V} {q : List (Entry V)} {id : Int} {seq : Seqn V} {draws : List Nat}
    {ids : List Int} (h : Hist columns maxlen lk ops t q) (hid : Table.wrapId id ∉ t.lengths.keys)
    (ha : AddOk draws t t' q ids (entryOf (Table.wrapId id) (rowsOf seq lk).length seq)) :
    Hist columns maxlen lk (ops ++ [.add id seq draws]) t'
      (q.filter (fun x => x.id ∉ ids) ++ [entryOf (Table.wrapId id) (rowsOf seq lk).length seq]) := by
  have hid' : Table.wrapId id ∉ q.map Entry.id := by
    rw [h.inv.lengths] at hid; simpa using hid
  have hle : ∀ e ∈ q.filter (fun x => x.id ∉ ids), e ∈ q := fun e he => (List.mem_filter.1 he).1
  refine ⟨ha.inv, ?_, ?_, ?_, ?_, ?_, ?_, ?_, ?_, ?_, ?_⟩
  · intro e he
    rcases List.mem_append.1 he with he | he
    · exact h.len e (hle e he)
    · simp at he; subst he; rfl
  · rw [ha.config.maxlen, total_append]
    have h1 := ha.total
    have h2 : total [entryOf (Table.wrapId id) (rowsOf seq lk).length seq] = (rowsOf seq lk).length := by
      simp [entryOf]
    rcases ha.made with ⟨h3, rfl, _⟩ | ⟨h3, h4, _, _⟩
    · have h3 : (total q : Int) + (rowsOf seq lk).length ≤ t.maxlen := h3
      rw [h2]; push_cast; omega
    · have h5 : (total q : Int) + (rowsOf seq lk).length - t.maxlen ≤ lenSum (lensOf q) ids := h4.enough
      rw [h2]; push_cast; omega
  · rw [ha.config.lengthKey, h.key]
  · rw [ha.config.columns, h.columns]
  · rw [ha.config.maxlen, h.maxlen, acts_append, toAct_add, queueAfter_add]
  · rw [acts_append, toAct_add, added_add]
    exact (List.filter_sublist.trans h.sub).append (List.Sublist.refl _)
  · intro e he
    rw [acts_append, toAct_add, lastAdd_add]
    rcases List.mem_append.1 he with he | he
    · have hne : Table.wrapId id ≠ e.id := fun heq => hid' (heq ▸ List.mem_map.2 ⟨e, hle e he, rfl⟩)
      rw [if_neg (by simpa [entryOf] using hne)]
      exact h.last e (hle e he)
    · simp at he; subst he; simp
  · rw [acts_append, toAct_add, everFull_add, ← h.full, ← h.maxlen]
    have hs := sublist_total h.sub
    cases hf : t.filled with
    | true =>
      rcases ha.made with ⟨_, _, h3⟩ | ⟨_, _, _, h3⟩
      · rw [h3, hf]; rfl
      · rw [h3]; rfl
    | false =>
      rw [← h.notFull hf]
      rcases ha.made with ⟨h1, _, h3⟩ | ⟨h1, _, _, h3⟩
      · rw [h3, hf]
        symm
        simp only [Bool.false_or, decide_eq_false_iff_not, Int.not_lt]
        exact h1
      · rw [h3]
        symm
        simp only [Bool.false_or, decide_eq_true_eq]
        exact h1
  · intro hf
    rw [acts_append, toAct_add, added_add]
    rcases ha.made with ⟨_, rfl, h3⟩ | ⟨_, _, _, h3⟩
    · rw [h3] at hf
      rw [filter_nil_ids, h.notFull hf]
    · rw [h3] at hf; simp at hf
  · intro e he
    rw [acts_append, toAct_add, added_add] at he
    simpa using he

theorem Inv.resize {t : Table V} {q : List (Entry V)} (h : Inv t q) (n : Int) :
    Inv { t with maxlen := n } q :=
  ⟨h.nodup, h.lengths, h.total, h.shape, h.names, h.stores, h.sampler, h.ejector⟩

theorem run_hist {columns : List Column} {maxlen : Int} {lk : String} {ops : List (Op V)}
    {t0 t : Table V} (hc : Created columns maxlen lk t0) (hr : Run t0 ops t) :
    ∃ q, Hist columns maxlen lk ops t q := by
  induction hr with
  | nil =>
    obtain ⟨hm, s, e, hs, he, hnew⟩ := hc
    obtain ⟨h1, h2, h3, h4, h5⟩ := new_ok hs he hnew
    refine ⟨[], h1, by simp, ?_, h4, h5, h3, ?_, by simp, h2, ?_, ?_⟩
    · simp [h3, hm]
    · exact List.nil_sublist _
    · intro _; rfl
    · intro e he; simp [acts, added] at he
  | add _ hs hid ha ih =>
    obtain ⟨q, hq⟩ := ih
    obtain ⟨ids, hids⟩ := add_ok hq.inv hs (by rw [hq.inv.lengths] at hid; simpa using hid) ha
    rw [hq.key] at hids
    exact ⟨_, hq.add hid hids⟩
  | resize _ hres ih =>
    obtain ⟨q, hq⟩ := ih
    rename_i ops t t' n _
    unfold Table.resize at hres
    split at hres
    · simp at hres
    · rename_i hle
      injection hres with hres _
      subst hres
      have ha : acts lk (ops ++ [Op.resize n]) = acts lk ops ++ [.resize n] := acts_append _ _ _
      refine ⟨q, hq.inv.resize n, hq.len, ?_, hq.key, hq.columns, ?_, ?_, ?_, ?_, ?_, ?_⟩
      · have := hq.cap; simp only; omega
      · rw [ha, queueAfter_resize]
      · rw [ha, added_resize]; exact hq.sub
      · intro e he; rw [ha, lastAdd_resize]; exact hq.last e he
      · rw [ha, everFull_resize]; exact hq.full
      · intro hf; rw [ha, added_resize]; exact hq.notFull hf
      · intro e he; rw [ha, added_resize] at he; exact hq.newest e he
  | sample _ hsam hx ih =>
    obtain ⟨q, hq⟩ := ih
    rename_i ops t t' count n c r junk x _
    obtain ⟨h1, h2, h3, h4⟩ := Table.sample_inv hq.inv hsam hx
    have ha : acts lk (ops ++ [Op.sample count n c r junk]) = acts lk ops := by
      rw [acts_append]; exact List.append_nil _
    refine ⟨q, h1, hq.len, ?_, ?_, ?_, ?_, ?_, ?_, ?_, ?_, ?_⟩
    · rw [h2.maxlen]; exact hq.cap
    · rw [h2.lengthKey]; exact hq.key
    · rw [h2.columns]; exact hq.columns
    · rw [ha, h2.maxlen]; exact hq.maxlen
    · rw [ha]; exact hq.sub
    · rw [ha]; exact hq.last
    · rw [ha, h3]; exact hq.full
    · rw [ha, h3]; exact hq.notFull
    · rw [ha]; exact hq.newest

/-- What the store of a column holds. -/
theorem Inv.stored_eq {t : Table V} {q : List (Entry V)} (h : Inv t q) {name : String}
    {d : Dict Int (List V)} (hd : t.stored name = some d) :
    d = q.map fun e => (e.id, e.rows name) := by
  unfold Table.stored at hd
  cases hg : t.data.get? name with
  | none => rw [hg] at hd; simp at hd
  | some s =>
    rw [hg] at hd
    have := h.stores name s (mem_of_get? hg)
    cases s with
    | plain d' => simp only [Option.some.injEq] at hd; subst hd; exact this
    | tag d' => simp only [Option.some.injEq] at hd; subst hd; exact this
    | virt k tgt => simp at hd

/-! ## FIFO ejection drops the oldest -/

theorem lenSum_prefix {q p r : List (Entry V)} (hn : (q.map Entry.id).Nodup) (hq : q = p ++ r) :
    lenSum (lensOf q) (p.map Entry.id) = total p := by
  have hsub : ∀ e ∈ p, e ∈ q := fun e he => hq ▸ List.mem_append_left _ he
  clear hq
  induction p with
  | nil => rfl
  | cons e p ih =>
    rw [List.map_cons, lenSum_cons, get?_lensOf hn (hsub e (by simp)),
      ih (fun x hx => hsub x (by simp [hx]))]
    simp

theorem filter_prefix {q p r : List (Entry V)} (hn : (q.map Entry.id).Nodup) (hq : q = p ++ r) :
    q.filter (fun e => e.id ∉ p.map Entry.id) = r := by
  subst hq
  rw [List.map_append, List.nodup_append] at hn
  rw [List.filter_append]
  have h1 : p.filter (fun e => e.id ∉ p.map Entry.id) = [] := by
    apply List.filter_eq_nil_iff.2
    intro e he
    simp only [decide_eq_true_eq, Decidable.not_not]
    exact List.mem_map.2 ⟨e, he, rfl⟩
  have h2 : r.filter (fun e => e.id ∉ p.map Entry.id) = r := by
    apply List.filter_eq_self.2
    intro e he
    simp only [decide_eq_true_eq]
    exact fun hm => hn.2.2 _ hm _ (List.mem_map.2 ⟨e, he, rfl⟩) rfl
  rw [h1, h2]; rfl

theorem dropOldest_eq {cap : Int} {n : Nat} {p r : List (Entry V)} (hfit : (total r : Int) + n ≤ cap)
    (hmin : ∀ pre last, p = pre ++ [last] → cap < (total (last :: r) : Int) + n) :
    dropOldest cap n (p ++ r) = r := by
  induction p with
  | nil =>
    cases r with
    | nil => rfl
    | cons e r => simp only [List.nil_append, dropOldest, hfit, if_true]
  | cons e p ih =>
    have hbig : cap < (total (e :: (p ++ r)) : Int) + n := by
      rcases List.eq_nil_or_concat p with rfl | ⟨pre, last, rfl⟩
      · exact hmin [] e rfl
      · have := hmin (e :: pre) last (by simp)
        simp only [total_cons, total_append, List.append_assoc, List.cons_append, List.nil_append,
          List.concat_eq_append] at this ⊢
        push_cast at this ⊢
        omega
    have : ¬ ((total (e :: (p ++ r)) : Int) + n ≤ cap) := by omega
    simp only [List.cons_append, dropOldest, this, if_false]
    apply ih
    intro pre last hp
    exact hmin (e :: pre) last (by simp [hp])

/-- A FIFO ejector realises the bounded queue. -/
theorem AddOk.fifo {draws : List Nat} {t t' : Table V} {q : List (Entry V)} {ids : List Int}
    {e : Entry V} (h : Inv t q) (hf : t.ejector.kind = 0) (ha : AddOk draws t t' q ids e)
    (hcap : (Spec.total (q.filter (fun x => x.id ∉ ids) ++ [e]) : Int) ≤ t.maxlen) :
    q.filter (fun x => x.id ∉ ids) ++ [e] = boundedAdd t.maxlen q e := by
  unfold boundedAdd
  congr 1
  symm
  rcases ha.made with ⟨h1, rfl, _⟩ | ⟨h1, h2, ⟨s, h3⟩, _⟩
  · rw [filter_nil_ids]
    exact dropOldest_eq (p := []) h1 (by intro pre last hp; simp at hp)
  · cases hE : t.ejector with
    | uniform s => rw [hE] at hf; simp [Strategy.kind] at hf
    | coverage s => rw [hE] at hf; simp [Strategy.kind] at hf
    | fifo s =>
      have ht := h.ejector
      rw [hE] at ht h3
      obtain ⟨t1, t2, t3⟩ := ht
      simp only [Strategy.eject, Fifo.eject, Prod.mk.injEq] at h3
      obtain ⟨_, h3⟩ := h3
      rw [t1, t2] at h3
      obtain ⟨rest, e1, _, _, _⟩ := Fifo.ejectLoop_ok h3
      rw [keys_lensOf] at e1
      obtain ⟨p, r, hq, hp, hr⟩ := List.map_eq_append_iff.1 e1
      subst hp
      rw [filter_prefix h.nodup hq]
      rw [filter_prefix h.nodup hq] at hcap
      conv => lhs; rw [hq]
      apply dropOldest_eq
      · simpa using hcap
      · intro pre last hpl
        have := h2.minimal (pre.map Entry.id) last.id (by rw [hpl]; simp)
        rw [lenSum_prefix (p := pre) (r := last :: r) h.nodup (by rw [hq, hpl]; simp)] at this
        rw [hq, hpl] at this
        simp only [total_append, total_cons, total_nil] at this ⊢
        push_cast at this ⊢
        omega

/-- With a FIFO ejector the table holds exactly the bounded queue. -/
theorem run_fifo {columns : List Column} {maxlen : Int} {lk : String} {ops : List (Op V)}
    {t0 t : Table V} (hc : Created columns maxlen lk t0) (hf : t0.ejector.kind = 0)
    (hr : Run t0 ops t) :
    Hist columns maxlen lk ops t (queueAfter maxlen (acts lk ops)).2 ∧ t.ejector.kind = 0 := by
  induction hr with
  | nil =>
    obtain ⟨q, hq⟩ := run_hist hc (Run.nil (t0 := t0))
    have : q = [] := List.sublist_nil.1 hq.sub
    subst this
    exact ⟨hq, hf⟩
  | add hr' hs hid ha ih =>
    obtain ⟨hq, hk⟩ := ih
    obtain ⟨ids, hids⟩ := add_ok hq.inv hs (by rw [hq.inv.lengths] at hid; simpa using hid) ha
    rw [hq.key] at hids
    have hh := hq.add hid hids
    have hb := AddOk.fifo hq.inv hk hids (by have := hh.cap; rw [hids.config.maxlen] at this; exact this)
    rw [hb] at hh
    refine ⟨?_, by rw [hids.config.ejectorKind, hk]⟩
    rw [acts_append, toAct_add, queueAfter_add, ← hq.maxlen] at *
    exact hh
  | resize hr' hres ih =>
    obtain ⟨hq, hk⟩ := ih
    rename_i ops t t' n
    have hh := run_hist hc (Run.resize hr' hres)
    obtain ⟨q', hq'⟩ := hh
    unfold Table.resize at hres
    split at hres
    · simp at hres
    · rename_i hle
      injection hres with hres _
      subst hres
      have ha : acts lk (ops ++ [Op.resize n]) = acts lk ops ++ [.resize n] := acts_append _ _ _
      rw [ha, queueAfter_resize]
      refine ⟨⟨hq.inv.resize n, hq.len, ?_, hq.key, hq.columns, ?_, ?_, ?_, ?_, ?_, ?_⟩, hk⟩
      · have := hq.cap; simp only; omega
      · rw [ha, queueAfter_resize]
      · rw [ha, added_resize]; exact hq.sub
      · intro e he; rw [ha, lastAdd_resize]; exact hq.last e he
      · rw [ha, everFull_resize]; exact hq.full
      · intro hf; rw [ha, added_resize]; exact hq.notFull hf
      · intro e he; rw [ha, added_resize] at he; exact hq.newest e he
  | sample hr' hsam hx ih =>
    obtain ⟨hq, hk⟩ := ih
    rename_i ops t t' count n c r junk x
    obtain ⟨h1, h2, h3, h4⟩ := Table.sample_inv hq.inv hsam hx
    have ha : acts lk (ops ++ [Op.sample count n c r junk]) = acts lk ops := by
      rw [acts_append]; exact List.append_nil _
    rw [ha]
    refine ⟨⟨h1, hq.len, ?_, ?_, ?_, ?_, ?_, ?_, ?_, ?_, ?_⟩, by rw [h2.ejectorKind, hk]⟩
    · rw [h2.maxlen]; exact hq.cap
    · rw [h2.lengthKey]; exact hq.key
    · rw [h2.columns]; exact hq.columns
    · rw [ha, h2.maxlen]; exact hq.maxlen
    · rw [ha]; exact hq.sub
    · rw [ha]; exact hq.last
    · rw [ha, h3]; exact hq.full
    · rw [ha, h3]; exact hq.notFull
    · rw [ha]; exact hq.newest

end Verif
