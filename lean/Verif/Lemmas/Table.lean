import Verif.Model.History
import Verif.Spec.Replay
import Verif.Lemmas.Strategy

set_option linter.unusedSimpArgs false

namespace Verif

open Dict Spec

variable {V : Type u}

/-- Kind of column a store belongs to. -/
def Store.kind : Store V → ColKind
  | .plain _ => .plain
  | .tag _ => .tag
  | .virt k tgt => .virt k tgt

/-- Store the rows under the identity (no-op for virtual stores). -/
def Store.put (s : Store V) (id : Int) (rows : List V) : Store V :=
  match s with
  | .plain d => .plain (d.set id rows)
  | .tag d => .tag (d.set id rows)
  | .virt k tgt => .virt k tgt

/-- Remove the identity. -/
def Store.drop (s : Store V) (id : Int) : Store V :=
  match s with
  | .plain d => .plain (d.erase id)
  | .tag d => .tag (d.erase id)
  | .virt k tgt => .virt k tgt

@[simp] theorem Store.kind_put (s : Store V) (id : Int) (rows : List V) :
    (s.put id rows).kind = s.kind := by cases s <;> rfl
@[simp] theorem Store.kind_drop (s : Store V) (id : Int) : (s.drop id).kind = s.kind := by
  cases s <;> rfl

/-- The store of column `name` holds exactly the rows of the episodes `q`. -/
def StoreOk (q : List (Entry V)) (name : String) (s : Store V) : Prop :=
  match s with
  | .plain d => d = q.map fun e => (e.id, e.rows name)
  | .tag d => d = q.map fun e => (e.id, e.rows name)
  | .virt _ _ => True

/-- identities with lengths -/
def lensOf (q : List (Entry V)) : Dict Int Nat := q.map fun e => (e.id, e.len)

@[simp] theorem keys_lensOf (q : List (Entry V)) : (lensOf q).keys = q.map Entry.id := by
  simp [lensOf, keys, Function.comp_def]

@[simp] theorem lensOf_append (q r : List (Entry V)) : lensOf (q ++ r) = lensOf q ++ lensOf r := by
  simp [lensOf]

@[simp] theorem total_append (q r : List (Entry V)) : total (q ++ r) = total q + total r := by
  simp [total]

@[simp] theorem total_nil : total ([] : List (Entry V)) = 0 := rfl
@[simp] theorem total_cons (e : Entry V) (q : List (Entry V)) : total (e :: q) = e.len + total q := by
  simp [total]

/-- The table consistently holds the episodes `q`. -/
structure Inv (t : Table V) (q : List (Entry V)) : Prop where
  nodup : (q.map Entry.id).Nodup
  lengths : t.lengths = lensOf q
  total : t.total = (Spec.total q : Nat)
  shape : t.data.map (fun p => (p.1, p.2.kind)) = t.columns
  names : t.data.keys.Nodup
  stores : ∀ name s, (name, s) ∈ t.data → StoreOk q name s
  sampler : t.sampler.Tracks (lensOf q)
  ejector : t.ejector.Tracks (lensOf q)

theorem Inv.keys_eq {t : Table V} {q : List (Entry V)} (h : Inv t q) :
    t.columns.keys = t.data.keys := by
  rw [← h.shape]; simp [keys, Function.comp_def]

/-! ## Erasing -/

theorem erase_map {β : Type v} (q : List (Entry V)) (f : Entry V → β) (id : Int)
    (hn : (q.map Entry.id).Nodup) :
    Dict.erase (q.map fun e => (e.id, f e)) id
      = (q.filter fun e => e.id ≠ id).map fun e => (e.id, f e) := by
  rw [erase_eq_filter (by simpa [keys, Function.comp_def] using hn), List.filter_map]
  rfl

theorem delAll_ok {q : List (Entry V)} {id : Int} (hid : id ∈ q.map Entry.id)
    (data : Dict String (Store V)) (h : ∀ name s, (name, s) ∈ data → StoreOk q name s) :
    Table.delAll id data = (data.map fun p => (p.1, p.2.drop id), .ok ()) := by
  induction data with
  | nil => rfl
  | cons p data ih =>
    obtain ⟨name, s⟩ := p
    have ih := ih (fun n s hs => h n s (List.mem_cons_of_mem _ hs))
    have hs := h name s (by simp)
    cases s with
    | plain d =>
      have : id ∈ d.keys := by
        simp only [StoreOk] at hs; rw [hs]; simpa [keys, Function.comp_def] using hid
      simp [Table.delAll, del?_of_mem this, ih, Store.drop]
    | tag d =>
      have : id ∈ d.keys := by
        simp only [StoreOk] at hs; rw [hs]; simpa [keys, Function.comp_def] using hid
      simp [Table.delAll, del?_of_mem this, ih, Store.drop]
    | virt k tgt => simp [Table.delAll, ih, Store.drop]

theorem lensOf_filter (q : List (Entry V)) (id : Int) (hn : (q.map Entry.id).Nodup) :
    (lensOf q).erase id = lensOf (q.filter fun e => e.id ≠ id) := erase_map q Entry.len id hn

theorem get?_lensOf {q : List (Entry V)} {e : Entry V} (hn : (q.map Entry.id).Nodup) (he : e ∈ q) :
    (lensOf q).get? e.id = some e.len := by
  apply get?_of_mem
  · simpa using hn
  · exact List.mem_map.2 ⟨e, he, rfl⟩

theorem total_filter_ne {q : List (Entry V)} {e : Entry V} (hn : (q.map Entry.id).Nodup)
    (he : e ∈ q) : total (q.filter fun x => x.id ≠ e.id) + e.len = total q := by
  induction q with
  | nil => simp at he
  | cons x q ih =>
    simp only [List.map_cons, List.nodup_cons] at hn
    rcases List.mem_cons.1 he with rfl | he
    · have : q.filter (fun x => x.id ≠ e.id) = q := by
        apply List.filter_eq_self.2
        intro y hy
        simp only [ne_eq, decide_not, Bool.not_eq_eq_eq_not, Bool.not_true, decide_eq_false_iff_not]
        exact fun e' => hn.1 (e' ▸ List.mem_map.2 ⟨y, hy, rfl⟩)
      rw [List.filter_cons, if_neg (by simp), this]; simp; omega
    · have hne : x.id ≠ e.id := fun h => hn.1 (h ▸ List.mem_map.2 ⟨e, he, rfl⟩)
      rw [List.filter_cons, if_pos (by simpa using hne)]
      have := ih hn.2 he
      simp only [total_cons]; omega

/-- Parts of the table that ejection and adding never touch. -/
structure SameConfig (t t' : Table V) : Prop where
  columns : t'.columns = t.columns
  lengthKey : t'.lengthKey = t.lengthKey
  maxlen : t'.maxlen = t.maxlen
  samplerKind : t'.sampler.kind = t.sampler.kind
  ejectorKind : t'.ejector.kind = t.ejector.kind

theorem SameConfig.rfl' {t : Table V} : SameConfig t t := ⟨rfl, rfl, rfl, rfl, rfl⟩
theorem SameConfig.trans {a b c : Table V} (h : SameConfig a b) (h' : SameConfig b c) :
    SameConfig a c :=
  ⟨h'.1.trans h.1, h'.2.trans h.2, h'.3.trans h.3, h'.4.trans h.4, h'.5.trans h.5⟩

theorem ejectOne_ok {t : Table V} {q : List (Entry V)} {id : Int} (h : Inv t q)
    (hid : id ∈ q.map Entry.id) :
    ∃ t', Table.ejectOne id t = (t', .ok ()) ∧ Inv t' (q.filter fun e => e.id ≠ id) ∧
      SameConfig t t' ∧ t'.filled = t.filled := by
  obtain ⟨e, he, rfl⟩ := List.mem_map.1 hid
  have hlen := get?_lensOf h.nodup he
  have hk : e.id ∈ (lensOf q).keys := by simpa using hid
  obtain ⟨s1, hs1, hs1'⟩ := Strategy.tracks_forget h.sampler hk
  obtain ⟨s2, hs2, hs2'⟩ := Strategy.tracks_forget h.ejector hk
  refine ⟨{ t with
      data := t.data.map (fun p => (p.1, p.2.drop e.id)), total := t.total - e.len,
      lengths := (lensOf q).erase e.id, sampler := s1, ejector := s2 }, ?_, ?_, ?_, ?_⟩
  · unfold Table.ejectOne
    simp only [Res.lift, delAll_ok hid t.data h.stores, Res.andThen_ok, h.lengths, hlen, hs1, hs2]
  · rw [lensOf_filter q e.id h.nodup] at hs1' hs2'
    refine ⟨?_, ?_, ?_, ?_, ?_, ?_, hs1', hs2'⟩
    · exact List.Nodup.sublist (List.Sublist.map _ List.filter_sublist) h.nodup
    · exact lensOf_filter q e.id h.nodup
    · have := total_filter_ne h.nodup he
      simp only [h.total]; omega
    · simp only [List.map_map, ← h.shape]
      apply List.map_congr_left
      intro p _; simp
    · have := h.names
      simp only [keys, List.map_map] at this ⊢
      exact this
    · intro name s hs
      simp only [List.mem_map] at hs
      obtain ⟨⟨n0, s0⟩, hm, heq⟩ := hs
      injection heq with h1 h2; subst h1 h2
      have := h.stores n0 s0 hm
      cases s0 with
      | plain d => simp only [StoreOk, Store.drop] at this ⊢; rw [this]; exact erase_map q _ _ h.nodup
      | tag d => simp only [StoreOk, Store.drop] at this ⊢; rw [this]; exact erase_map q _ _ h.nodup
      | virt k tgt => trivial
  · exact ⟨rfl, rfl, rfl, Strategy.kind_forget hs1, Strategy.kind_forget hs2⟩
  · rfl

theorem lenSum_erase {l : Dict Int Nat} {id : Int} {ids : List Int} (hn : l.keys.Nodup)
    (h : id ∉ ids) : lenSum (l.erase id) ids = lenSum l ids := by
  induction ids with
  | nil => rfl
  | cons j ids ih =>
    simp only [List.mem_cons, not_or] at h
    rw [lenSum_cons, lenSum_cons, get?_erase hn, if_neg h.1, ih h.2]

theorem filter_filter_ids (q : List (Entry V)) (id : Int) (ids : List Int) :
    (q.filter fun e => e.id ≠ id).filter (fun e => e.id ∉ ids)
      = q.filter fun e => e.id ∉ id :: ids := by
  rw [List.filter_filter]
  apply List.filter_congr
  intro e _
  simp [Bool.and_comm]

theorem filter_nil_ids (q : List (Entry V)) : q.filter (fun e => e.id ∉ ([] : List Int)) = q := by
  apply List.filter_eq_self.2; intro e _; simp

theorem ejectAll_ok {t : Table V} {q : List (Entry V)} {ids : List Int} (h : Inv t q)
    (hn : ids.Nodup) (hid : ∀ id ∈ ids, id ∈ q.map Entry.id) :
    ∃ t', Res.forEach ids Table.ejectOne t = (t', .ok ()) ∧
      Inv t' (q.filter fun e => e.id ∉ ids) ∧ SameConfig t t' ∧ t'.filled = t.filled ∧
      total (q.filter fun e => e.id ∉ ids) + lenSum (lensOf q) ids = total q := by
  induction ids generalizing t q with
  | nil => exact ⟨t, rfl, by rw [filter_nil_ids]; exact h, SameConfig.rfl', rfl, by rw [filter_nil_ids]; simp⟩
  | cons id ids ih =>
    simp only [List.nodup_cons] at hn
    obtain ⟨t1, h1, h2, h3, h4⟩ := ejectOne_ok h (hid id (by simp))
    obtain ⟨t2, k1, k2, k3, k4, k5⟩ := ih h2 hn.2 (by
      intro j hj
      have := hid j (by simp [hj])
      obtain ⟨e, he, rfl⟩ := List.mem_map.1 this
      refine List.mem_map.2 ⟨e, ?_, rfl⟩
      simp only [List.mem_filter, he, true_and, ne_eq, decide_eq_true_eq]
      exact fun e' => hn.1 (e' ▸ hj))
    rw [filter_filter_ids] at k2 k5
    refine ⟨t2, ?_, k2, h3.trans k3, k4.trans h4, ?_⟩
    · simp [Res.forEach, h1, k1]
    · obtain ⟨e, he, rfl⟩ := List.mem_map.1 (hid id (by simp))
      have ht := total_filter_ne h.nodup he
      rw [← lensOf_filter q e.id h.nodup, lenSum_erase (by simpa using h.nodup) hn.1] at k5
      rw [lenSum_cons, get?_lensOf h.nodup he]
      simp only
      omega

/-! ## Writing -/

/-- the effect of writing a whole sequence on one store -/
def putSeq (id : Int) (seq : Seqn V) (p : String × Store V) : String × Store V :=
  match seq.get? p.1 with
  | some rows => (p.1, p.2.put id rows)
  | none => p

theorem set_eq_map (data : Dict String (Store V)) (n : String) (s s' : Store V)
    (hn : data.keys.Nodup) (hs : data.get? n = some s) (f : Store V → Store V) (hf : f s = s') :
    data.set n s' = data.map fun p => if p.1 = n then (p.1, f p.2) else p := by
  induction data with
  | nil => simp [get?] at hs
  | cons p data ih =>
    obtain ⟨k, v⟩ := p
    simp only [keys_cons, List.nodup_cons] at hn
    by_cases hk : k = n
    · subst hk
      simp only [get?, if_true, Option.some.injEq] at hs
      subst hs
      simp only [Dict.set, if_true, List.map_cons, hf, List.cons.injEq, true_and]
      symm
      calc _ = data.map id := by
            apply List.map_congr_left
            intro p hp
            have : p.1 ≠ k := fun e => hn.1 (e ▸ mem_keys_of_mem (k := p.1) (v := p.2) hp)
            simp [this]
        _ = data := by simp
    · simp only [get?, hk, if_false] at hs
      simp [Dict.set, hk, ih hn.2 hs]

theorem writeColumns_ok {t : Table V} {id : Int} (seq : Seqn V) (hn : seq.keys.Nodup)
    (hk : ∀ n ∈ seq.keys, n ∈ t.columns.keys) (hc : t.columns.keys = t.data.keys)
    (hd : t.data.keys.Nodup) :
    Res.forEach seq (Table.writeColumn id) t
      = ({ t with data := t.data.map (putSeq id seq) }, .ok ()) := by
  induction seq generalizing t with
  | nil =>
    have : t.data.map (putSeq id []) = t.data := by
      conv => rhs; rw [← List.map_id t.data]
      apply List.map_congr_left; intro p _; simp [putSeq, get?]
    simp [Res.forEach, this]
  | cons nv seq ih =>
    obtain ⟨n, v⟩ := nv
    simp only [keys_cons, List.nodup_cons] at hn
    have hin : n ∈ t.columns.keys := hk n (by simp)
    have hc' : t.columns.contains n = true := contains_iff.2 hin
    obtain ⟨s, hs⟩ := get?_isSome_of_mem (hc ▸ hin)
    have hstep : Table.writeColumn id (n, v) t
        = ({ t with data := t.data.map fun p => if p.1 = n then (p.1, p.2.put id v) else p }, .ok ()) := by
      have hset := set_eq_map t.data n s (s.put id v) hd hs (fun s => s.put id v) rfl
      unfold Table.writeColumn
      simp only [hc', if_true, hs]
      cases s with
      | plain d => simp only [Store.put] at hset ⊢; rw [hset]
      | tag d => simp only [Store.put] at hset ⊢; rw [hset]
      | virt k tgt =>
        have : t.data.map (fun p => if p.1 = n then (p.1, p.2.put id v) else p) = t.data := by
          conv => rhs; rw [← List.map_id t.data]
          apply List.map_congr_left
          rintro ⟨a, b⟩ hp
          by_cases ha : a = n
          · subst ha
            have := get?_of_mem hd hp
            rw [this] at hs; injection hs with hs; subst hs
            simp [Store.put]
          · simp [ha]
        simp only [this]
    have hkeys : (t.data.map fun p => if p.1 = n then (p.1, p.2.put id v) else p).map Prod.fst
        = t.data.keys := by
      simp only [keys, List.map_map]
      apply List.map_congr_left
      intro p _; simp only [Function.comp_apply]; split <;> rfl
    unfold Res.forEach
    rw [hstep, Res.andThen_ok]
    rw [ih (t := { t with data := t.data.map fun p => if p.1 = n then (p.1, p.2.put id v) else p })
      hn.2 (fun m hm => hk m (by simp [hm])) (hc.trans hkeys.symm)
      (by unfold keys; rw [hkeys]; exact hd)]
    simp only [List.map_map]
    congr 2
    apply List.map_congr_left
    rintro ⟨a, b⟩ _
    by_cases ha : a = n
    · subst ha
      have : Dict.get? seq a = none := get?_none_iff.2 hn.1
      simp [putSeq, get?, this]
    · simp [putSeq, get?, ha, Ne.symm ha]

/-- Everything after making room. -/
theorem append_ok {t : Table V} {q : List (Entry V)} {id : Int} {len : Nat} {seq : Seqn V}
    (h : Inv t q) (hs : SeqOk t seq) (hid : id ∉ q.map Entry.id) :
    ∃ t', ((Res.forEach seq (Table.writeColumn id) t).andThen fun t _ =>
        let t := { t with total := t.total + len, lengths := t.lengths.set id len }
        (Res.lift (fun s => { t with sampler := s }) (t.sampler.track id len)).andThen fun t _ =>
        Res.lift (fun s => { t with ejector := s }) (t.ejector.track id len)) = (t', .ok ()) ∧
      Inv t' (q ++ [entryOf id len seq]) ∧ SameConfig t t' ∧ t'.filled = t.filled := by
  have hk : id ∉ (lensOf q).keys := by simpa using hid
  obtain ⟨s1, hs1, hs1'⟩ := Strategy.tracks_track (len := len) h.sampler hk
  obtain ⟨s2, hs2, hs2'⟩ := Strategy.tracks_track (len := len) h.ejector hk
  refine ⟨{ t with
      data := t.data.map (putSeq id seq), total := t.total + len,
      lengths := t.lengths.set id len, sampler := s1, ejector := s2 }, ?_, ?_, ?_, ?_⟩
  · rw [writeColumns_ok seq hs.names hs.known h.keys_eq h.names]
    simp only [Res.andThen_ok, hs1, hs2, Res.lift]
  · refine ⟨?_, ?_, ?_, ?_, ?_, ?_, ?_, ?_⟩
    · rw [List.map_append, List.nodup_append]
      refine ⟨h.nodup, by simp, ?_⟩
      intro a ha b hb
      simp [entryOf] at hb; subst hb
      exact fun e => hid (e ▸ ha)
    · simp only [h.lengths, set_of_not_mem hk, lensOf_append]; rfl
    · simp only [h.total, total_append]; simp [entryOf]
    · simp only [List.map_map, ← h.shape]
      apply List.map_congr_left
      intro p _
      simp only [Function.comp_apply, putSeq]
      split <;> simp
    · have := h.names
      simp only [keys, List.map_map] at this ⊢
      have e : (Prod.fst ∘ putSeq id seq) = (Prod.fst : String × Store V → String) := by
        funext p; simp only [Function.comp_apply, putSeq]; split <;> rfl
      rw [e]; exact this
    · intro name s hm
      simp only [List.mem_map] at hm
      obtain ⟨⟨n0, s0⟩, hm, heq⟩ := hm
      have h0 := h.stores n0 s0 hm
      have hcol : (n0, s0.kind) ∈ t.columns := by
        rw [← h.shape]; exact List.mem_map.2 ⟨(n0, s0), hm, rfl⟩
      unfold putSeq at heq
      cases s0 with
      | plain d =>
        have hin := hs.complete (n0, _) hcol (Or.inl rfl)
        obtain ⟨rows, hrows⟩ := get?_isSome_of_mem hin
        simp only [hrows, Store.put, Prod.mk.injEq] at heq
        obtain ⟨rfl, rfl⟩ := heq
        simp only [StoreOk] at h0 ⊢
        rw [h0, set_of_not_mem (by simpa [keys, Function.comp_def] using hid)]
        simp [entryOf, rowsOf, hrows]
      | tag d =>
        have hin := hs.complete (n0, _) hcol (Or.inr rfl)
        obtain ⟨rows, hrows⟩ := get?_isSome_of_mem hin
        simp only [hrows, Store.put, Prod.mk.injEq] at heq
        obtain ⟨rfl, rfl⟩ := heq
        simp only [StoreOk] at h0 ⊢
        rw [h0, set_of_not_mem (by simpa [keys, Function.comp_def] using hid)]
        simp [entryOf, rowsOf, hrows]
      | virt k tgt =>
        have : s = .virt k tgt := by
          split at heq
          · simp only [Store.put, Prod.mk.injEq] at heq; exact heq.2.symm
          · simp only [Prod.mk.injEq] at heq; exact heq.2.symm
        subst this; trivial
    · rw [lensOf_append]; exact hs1'
    · rw [lensOf_append]; exact hs2'
  · exact ⟨rfl, rfl, rfl, Strategy.kind_track hs1, Strategy.kind_track hs2⟩
  · rfl

/-! ## `add_sequence` -/

/-- Result of a successful add. -/
structure AddOk (draws : List Nat) (t t' : Table V) (q : List (Entry V)) (ids : List Int)
    (e : Entry V) : Prop where
  inv : Inv t' (q.filter (fun x => x.id ∉ ids) ++ [e])
  config : SameConfig t t'
  /-- nothing is ejected if it fits; otherwise just enough -/
  made : ((total q : Int) + e.len ≤ t.maxlen ∧ ids = [] ∧ t'.filled = t.filled) ∨
    (t.maxlen < (total q : Int) + e.len ∧ EjectOk (lensOf q) ((total q : Int) + e.len - t.maxlen) ids ∧
      (∃ s, t.ejector.eject ((total q : Int) + e.len - t.maxlen) draws = (s, .ok ids)) ∧
      t'.filled = true)
  total : total (q.filter fun x => x.id ∉ ids) + lenSum (lensOf q) ids = total q

theorem ejectCount_eq (draws : List Nat) (count : Int) (t : Table V) :
    Table.ejectCount draws count t =
      (Res.lift (fun s => { t with filled := true, ejector := s })
        (t.ejector.eject count draws)).andThen fun t ids => Res.forEach ids Table.ejectOne t := rfl

theorem ejectCount_ok {t : Table V} {q : List (Entry V)} {draws : List Nat} {count : Int}
    {s : Strategy} {ids : List Int} (h : Inv t q)
    (he : t.ejector.eject count draws = (s, .ok ids)) :
    ∃ t', Table.ejectCount draws count t = (t', .ok ()) ∧
      Inv t' (q.filter fun e => e.id ∉ ids) ∧ SameConfig t t' ∧ t'.filled = true ∧
      EjectOk (lensOf q) count ids ∧
      total (q.filter fun e => e.id ∉ ids) + lenSum (lensOf q) ids = total q := by
  obtain ⟨h1, h2⟩ := Strategy.tracks_eject (by simpa using h.nodup) h.ejector he
  have hi : Inv { t with filled := true, ejector := s } q :=
    ⟨h.nodup, h.lengths, h.total, h.shape, h.names, h.stores, h.sampler, h1⟩
  obtain ⟨t', k1, k2, k3, k4, k5⟩ := ejectAll_ok hi h2.nodup (by simpa using h2.subset)
  refine ⟨t', ?_, k2, ⟨k3.1, k3.2, k3.3, k3.4, k3.5.trans (Strategy.kind_eject he)⟩, k4, h2, k5⟩
  rw [ejectCount_eq, he]
  exact k1

theorem add_ok {t t' : Table V} {q : List (Entry V)} {draws : List Nat} {id : Int} {seq : Seqn V}
    (h : Inv t q) (hs : SeqOk t seq) (hid : Table.wrapId id ∉ q.map Entry.id)
    (ha : Table.addSequence draws id seq t = (t', .ok ())) :
    ∃ ids, AddOk draws t t' q ids (entryOf (Table.wrapId id) (rowsOf seq t.lengthKey).length seq) := by
  unfold Table.addSequence at ha
  cases hl : seq.get? t.lengthKey with
  | none => rw [hl] at ha; simp at ha
  | some rows =>
    rw [hl] at ha
    simp only at ha
    have hrows : rowsOf seq t.lengthKey = rows := by simp [rowsOf, hl]
    rw [hrows]
    split at ha
    · rename_i hbig
      cases he : t.ejector.eject (t.total + rows.length - t.maxlen) draws with
      | mk s r =>
        cases r with
        | error e =>
          rw [ejectCount_eq, he] at ha
          simp [Res.lift, Res.andThen] at ha
        | ok ids =>
          obtain ⟨t1, h1, h2, h3, h4, h5, h6⟩ := ejectCount_ok h he
          rw [h1, Res.andThen_ok] at ha
          have hs1 : SeqOk t1 seq := ⟨hs.names, by rw [h3.columns]; exact hs.known,
            by rw [h3.columns]; exact hs.complete⟩
          obtain ⟨t2, k1, k2, k3, k4⟩ := append_ok (id := Table.wrapId id) (len := rows.length) h2 hs1
            (fun hm => hid (by
              obtain ⟨e, he, heq⟩ := List.mem_map.1 hm
              exact List.mem_map.2 ⟨e, (List.mem_filter.1 he).1, heq⟩))
          rw [k1] at ha
          injection ha with ha _
          subst ha
          refine ⟨ids, k2, h3.trans k3, Or.inr ⟨?_, ?_, ⟨s, ?_⟩, k4.trans h4⟩, h6⟩
          · have := h.total; simp only [entryOf]; omega
          · rw [h.total] at h5; exact h5
          · rw [h.total] at he; exact he
    · rename_i hfit
      rw [Res.andThen_ok] at ha
      obtain ⟨t2, k1, k2, k3, k4⟩ := append_ok (id := Table.wrapId id) (len := rows.length) h hs hid
      rw [k1] at ha
      injection ha with ha _
      subst ha
      refine ⟨[], by rw [filter_nil_ids]; exact k2, k3, Or.inl ⟨?_, rfl, k4⟩, by rw [filter_nil_ids]; simp⟩
      have := h.total; simp only [entryOf]; omega

/-- The add succeeds if making room does. -/
theorem add_succeeds {t : Table V} {q : List (Entry V)} {draws : List Nat} {id : Int} {seq : Seqn V}
    {rows : List V} (h : Inv t q) (hs : SeqOk t seq) (hid : Table.wrapId id ∉ q.map Entry.id)
    (hl : seq.get? t.lengthKey = some rows)
    (he : t.maxlen < t.total + rows.length →
      ∃ s ids, t.ejector.eject (t.total + rows.length - t.maxlen) draws = (s, .ok ids)) :
    ∃ t', Table.addSequence draws id seq t = (t', .ok ()) := by
  unfold Table.addSequence
  rw [hl]
  simp only
  split
  · rename_i hbig
    obtain ⟨s, ids, he⟩ := he hbig
    obtain ⟨t1, h1, h2, h3, h4, h5, h6⟩ := ejectCount_ok h he
    rw [h1, Res.andThen_ok]
    have hs1 : SeqOk t1 seq := ⟨hs.names, by rw [h3.columns]; exact hs.known,
      by rw [h3.columns]; exact hs.complete⟩
    obtain ⟨t2, k1, k2, k3, k4⟩ := append_ok (id := Table.wrapId id) (len := rows.length) h2 hs1
      (fun hm => hid (by
        obtain ⟨e, he, heq⟩ := List.mem_map.1 hm
        exact List.mem_map.2 ⟨e, (List.mem_filter.1 he).1, heq⟩))
    exact ⟨t2, k1⟩
  · rw [Res.andThen_ok]
    obtain ⟨t2, k1, k2, k3, k4⟩ := append_ok (id := Table.wrapId id) (len := rows.length) h hs hid
    exact ⟨t2, k1⟩

/-! ## A new table -/

/-- an empty store of the kind -/
def ColKind.empty : ColKind → Store V
  | .plain => .plain []
  | .tag => .tag []
  | .virt k tgt => .virt k tgt

theorem buildStores_ok {cols : Dict String ColKind} {acc data : Dict String (Store V)}
    (hn : (acc.keys ++ cols.keys).Nodup) (h : Table.buildStores cols acc = .ok data) :
    data = acc ++ cols.map fun p => (p.1, p.2.empty) := by
  induction cols generalizing acc with
  | nil => simp only [Table.buildStores, Except.ok.injEq] at h; simp [h]
  | cons p cols ih =>
    obtain ⟨n, k⟩ := p
    have hnot : n ∉ acc.keys := by
      rw [List.nodup_append] at hn
      exact fun hm => hn.2.2 n hm n (by simp) rfl
    have hset : ∀ s : Store V, acc.set n s = acc ++ [(n, s)] := fun s => set_of_not_mem hnot
    have hn' : ∀ s : Store V, (Dict.keys (acc ++ [(n, s)]) ++ Dict.keys cols).Nodup := by
      intro s; simpa [keys_append, List.append_assoc] using hn
    cases k with
    | plain =>
      simp only [Table.buildStores, hset] at h
      rw [ih (hn' _) h]; simp [ColKind.empty]
    | tag =>
      simp only [Table.buildStores, hset] at h
      rw [ih (hn' _) h]; simp [ColKind.empty]
    | virt k tgt =>
      simp only [Table.buildStores, hset] at h
      split at h
      · rw [ih (hn' _) h]; simp [ColKind.empty]
      · simp at h

theorem nodup_update {κ : Type} {α : Type v} [DecidableEq κ] (e d : Dict κ α) (h : d.keys.Nodup) :
    (d.update e).keys.Nodup := by
  unfold Dict.update
  induction e generalizing d with
  | nil => exact h
  | cons p e ih => exact ih _ (nodup_set h)

theorem new_ok {columns : List Column} {maxlen : Int} {sampler ejector : Strategy}
    {lengthKey : String} {t : Table V} (hs : sampler.Fresh) (he : ejector.Fresh)
    (h : Table.new columns maxlen sampler ejector lengthKey = (t, .ok ())) :
    Inv t [] ∧ t.filled = false ∧ t.maxlen = maxlen ∧ t.lengthKey = lengthKey ∧
      t.columns = Dict.ofPairs (columns.map fun c => (c.name, c.kind)) := by
  unfold Table.new Table.clear at h
  simp only at h
  split at h
  · simp at h
  · rename_i data hd
    injection h with h _
    subst h
    have hcn : (Dict.ofPairs (columns.map fun c => (c.name, c.kind))).keys.Nodup :=
      nodup_update _ _ (by simp)
    have hd := buildStores_ok (by simpa using hcn) hd
    simp only [List.nil_append] at hd
    subst hd
    refine ⟨⟨by simp, rfl, by simp, ?_, ?_, ?_, hs.tracks, he.tracks⟩, rfl, rfl, rfl, rfl⟩
    · simp only [List.map_map]
      conv => rhs; rw [← List.map_id (Dict.ofPairs _)]
      apply List.map_congr_left
      rintro ⟨n, k⟩ _
      cases k <;> simp [ColKind.empty, Store.kind]
    · simpa [keys, Function.comp_def] using hcn
    · intro name s hm
      simp only [List.mem_map] at hm
      obtain ⟨⟨n, k⟩, _, heq⟩ := hm
      injection heq with h1 h2; subst h1 h2
      cases k <;> simp [ColKind.empty, StoreOk]

end Verif
