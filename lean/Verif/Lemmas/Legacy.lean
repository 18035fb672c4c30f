import Verif.Lemmas.Twin

set_option linter.unusedSimpArgs false

namespace Verif

open Dict Spec

variable {V : Type u}

/-! ## Renaming -/

theorem importedId_neg (k : Int) : importedId k < 0 := by unfold importedId; omega

theorem importedId_of_nonneg {k : Int} (h : 0 ≤ k) : importedId k = -k - 1 := by unfold importedId; omega

theorem importedId_inj {j k : Int} (hj : 0 ≤ j) (hk : 0 ≤ k) (h : importedId j = importedId k) : j = k := by
  rw [importedId_of_nonneg hj, importedId_of_nonneg hk] at h; omega

/-- Renaming of a keyed list: negative keys are dropped. -/
def renameKeys {α : Type v} (d : Dict Int α) : Dict Int α :=
  (d.filter fun p => 0 ≤ p.1).map fun p => (importedId p.1, p.2)

/-- The contents after an import. -/
def renameAll (q : List (Entry V)) : List (Entry V) :=
  (q.filter fun e => 0 ≤ e.id).map fun e => { e with id := importedId e.id }

theorem renameKeys_map {α : Type v} (q : List (Entry V)) (f : Entry V → α)
    (hf : ∀ e i, f { e with id := i } = f e) :
    renameKeys (q.map fun e => (e.id, f e)) = (renameAll q).map fun e => (e.id, f e) := by
  unfold renameKeys renameAll
  rw [List.filter_map, List.map_map, List.map_map]
  apply List.map_congr_left
  intro e _
  simp [hf]

theorem renameKeys_nodup {α : Type v} {d : Dict Int α} (h : d.keys.Nodup) : (renameKeys d).keys.Nodup := by
  unfold renameKeys keys
  rw [List.map_map]
  have h1 : ((d.filter fun p => 0 ≤ p.1).map Prod.fst).Nodup :=
    List.Nodup.sublist ((List.filter_sublist).map _) h
  have : List.map (Prod.fst ∘ fun (p : Int × α) => (importedId p.1, p.2)) (d.filter fun p => 0 ≤ p.1)
      = ((d.filter fun p => 0 ≤ p.1).map Prod.fst).map importedId := by
    rw [List.map_map]; rfl
  rw [this]
  apply List.pairwise_map.2
  refine List.Pairwise.imp_of_mem ?_ h1
  intro a b ha hb hab hc
  obtain ⟨pa, hpa, rfl⟩ := List.mem_map.1 ha
  obtain ⟨pb, hpb, rfl⟩ := List.mem_map.1 hb
  have h2 := (List.mem_filter.1 hpa).2
  have h3 := (List.mem_filter.1 hpb).2
  simp only [decide_eq_true_eq] at h2 h3
  exact hab (importedId_inj h2 h3 hc)

theorem renameAll_nodup {q : List (Entry V)} (h : (q.map Entry.id).Nodup) :
    ((renameAll q).map Entry.id).Nodup := by
  have := renameKeys_nodup (d := q.map fun e => (e.id, ())) (by simpa [keys, Function.comp_def] using h)
  rw [renameKeys_map q (fun _ => ()) (fun _ _ => rfl)] at this
  simpa [keys, Function.comp_def] using this

/-- Imported sequences are older than live ones. -/
def NegFirst (ids : List Int) : Prop := ids.Pairwise fun a b => 0 ≤ a → 0 ≤ b

/-- Renaming one at a time, as the strategies do it. -/
theorem Strategy.rename_loop {σ : Type} (mk : σ → Strategy) (step : Int × Nat → σ → Res σ Unit)
    (hstep : ∀ p s r, (mk s).Tracks (p :: r) → Res.lift mk (step p s) =
      ((mk s).forget p.1).andThen fun s _ => if 0 ≤ p.1 then s.track (importedId p.1) p.2 else (s, .ok ()))
    (l done : Dict Int Nat) (hn : l.keys.Nodup) (hneg : NegFirst l.keys)
    (hdone : ∀ k ∈ done.keys, k < 0) (hdone' : ∀ k ∈ l.keys, 0 ≤ k → importedId k ∉ done.keys)
    (hdn : done.keys.Nodup) (hdis : ∀ k ∈ l.keys, k < 0 → done = []) (s : σ) (h : (mk s).Tracks (l ++ done)) :
    ∃ s', Res.forEach l step s = (s', .ok ()) ∧ (mk s').Tracks (done ++ renameKeys l) := by
  induction l generalizing done s with
  | nil => exact ⟨s, rfl, by simpa [renameKeys] using h⟩
  | cons p l ih =>
    obtain ⟨id, len⟩ := p
    simp only [keys_cons, List.nodup_cons] at hn
    have hneg' : NegFirst (Dict.keys l) := (List.pairwise_cons.1 hneg).2
    obtain ⟨s1, f1, f2⟩ := tracks_forget h (id := id) (by simp)
    have hlift := hstep (id, len) s (l ++ done) h
    rw [f1, Res.andThen_ok] at hlift
    have her : Dict.erase ((id, len) :: l ++ done) id = l ++ done := by simp [Dict.erase]
    rw [her] at f2
    by_cases hid : 0 ≤ id
    · simp only [if_pos hid] at hlift
      have hnot : importedId id ∉ Dict.keys (l ++ done) := by
        rw [keys_append, List.mem_append]
        rintro (hm | hm)
        · have := (List.pairwise_cons.1 hneg).1 _ hm hid
          have := importedId_neg id
          omega
        · exact hdone' id (by simp) hid hm
      obtain ⟨s2, t1, t2⟩ := tracks_track (len := len) f2 hnot
      rw [t1] at hlift
      cases hst : step (id, len) s with
      | mk s' x =>
        rw [hst] at hlift
        simp only [Res.lift, Prod.mk.injEq] at hlift
        obtain ⟨rfl, rfl⟩ := hlift
        obtain ⟨s'', k1, k2⟩ := ih (done ++ [(importedId id, len)]) hn.2 hneg'
          (by
            intro k hk
            rw [keys_append, List.mem_append] at hk
            rcases hk with hk | hk
            · exact hdone k hk
            · simp at hk; rw [hk]; exact importedId_neg id)
          (by
            intro k hk h0 hm
            rw [keys_append, List.mem_append] at hm
            rcases hm with hm | hm
            · exact hdone' k (by simp [hk]) h0 hm
            · simp at hm
              have := importedId_inj h0 hid hm
              subst this; exact hn.1 hk)
          (by
            rw [keys_append, List.nodup_append]
            refine ⟨hdn, by simp, ?_⟩
            intro a ha b hb
            simp at hb; subst hb
            rintro rfl
            exact hdone' id (by simp) hid ha)
          (by
            intro k hk h0
            have := (List.pairwise_cons.1 hneg).1 k hk hid
            omega)
          s' (by simpa using t2)
        refine ⟨s'', ?_, ?_⟩
        · simp only [Res.forEach, hst, Res.andThen_ok]; exact k1
        · have : renameKeys ((id, len) :: l) = (importedId id, len) :: renameKeys l := by
            simp [renameKeys, List.filter_cons, hid]
          rw [this]; simpa using k2
    · simp only [if_neg hid] at hlift
      cases hst : step (id, len) s with
      | mk s' x =>
        rw [hst] at hlift
        simp only [Res.lift, Prod.mk.injEq] at hlift
        obtain ⟨rfl, rfl⟩ := hlift
        have hd0 : done = [] := hdis id (by simp) (by omega)
        subst hd0
        obtain ⟨s'', k1, k2⟩ := ih [] hn.2 hneg' (by simp) (by simp) (by simp) (by simp) s' f2
        refine ⟨s'', ?_, ?_⟩
        · simp only [Res.forEach, hst, Res.andThen_ok]; exact k1
        · have : renameKeys ((id, len) :: l) = renameKeys l := by
            simp [renameKeys, List.filter_cons, hid]
          rw [this]; exact k2

theorem forEach_map {σ : Type v} {α : Type w} {β : Type w} (f : α → β) (xs : List α) (body : β → σ → Res σ Unit)
    (s : σ) : Res.forEach (xs.map f) body s = Res.forEach xs (fun a => body (f a)) s := by
  induction xs generalizing s with
  | nil => rfl
  | cons x xs ih => simp only [List.map_cons, Res.forEach]; congr 1; funext s _; exact ih s

theorem fits_imported {k : Int} (h0 : 0 ≤ k) (h : fitsInt64 k = true) : fitsInt64 (importedId k) = true := by
  rw [importedId_of_nonneg h0]
  simp only [fitsInt64, Bool.and_eq_true, decide_eq_true_eq] at h ⊢
  omega

theorem fits_renameKeys {α : Type v} {d : Dict Int α} (h : ∀ k ∈ d.keys, fitsInt64 k = true) :
    ∀ k ∈ (renameKeys d).keys, fitsInt64 k = true := by
  intro k hk
  unfold renameKeys keys at hk
  rw [List.map_map] at hk
  obtain ⟨p, hp, rfl⟩ := List.mem_map.1 hk
  obtain ⟨h1, h2⟩ := List.mem_filter.1 hp
  simp only [decide_eq_true_eq] at h2
  exact fits_imported h2 (h p.1 (List.mem_map.2 ⟨p, h1, rfl⟩))

theorem renameKeys_neg {α : Type v} {d : Dict Int α} : ∀ k ∈ (renameKeys d).keys, k < 0 := by
  intro k hk
  unfold renameKeys keys at hk
  rw [List.map_map] at hk
  obtain ⟨p, hp, rfl⟩ := List.mem_map.1 hk
  exact importedId_neg p.1

theorem Strategy.postImport_ok {s : Strategy} {l : Dict Int Nat} (h : s.Tracks l) (hn : l.keys.Nodup)
    (hneg : NegFirst l.keys) (hfit : ∀ k ∈ l.keys, fitsInt64 k = true) (hk : s.kind ≠ 2) :
    ∃ s', s.postImport = (s', .ok ()) ∧ s'.Tracks (renameKeys l) ∧ s'.kind = s.kind := by
  cases s with
  | fifo s =>
    have hids : s.ids = l.map Prod.fst := h.1
    obtain ⟨s', k1, k2⟩ := rename_loop .fifo (fun p => fifoPostOne p.1) (by
        intro p s r hr
        have hg : s.lens.get? p.1 = some p.2 := by
          rw [hr.2.1]; obtain ⟨a, b⟩ := p; simp [Dict.get?]
        unfold fifoPostOne
        rw [hg]
        simp only [forget, Res.lift]
        cases s.forget p.1 with
        | mk s1 x =>
          cases x with
          | error e => rfl
          | ok u =>
            simp only [Res.andThen_ok]
            split <;> rfl)
      l [] hn hneg (by simp) (by simp) (by simp) (by simp) s (by simpa using h)
    refine ⟨.fifo s', ?_, by simpa using k2, rfl⟩
    unfold postImport
    simp only
    rw [hids, forEach_map, k1]
    rfl
  | uniform s =>
    have hids : s.idents = l := h.1
    obtain ⟨s', k1, k2⟩ := rename_loop .uniform uniformPostOne (by
        intro p s r hr
        unfold uniformPostOne
        simp only [forget, Res.lift]
        cases s.forget p.1 with
        | mk s1 x =>
          cases x with
          | error e => rfl
          | ok u =>
            simp only [Res.andThen_ok]
            split <;> rfl)
      l [] hn hneg (by simp) (by simp) (by simp) (by simp) s (by simpa using h)
    simp only [List.nil_append] at k2
    obtain ⟨s2, hs2⟩ := Uniform.refresh_fits k2 (by
      rw [List.all_eq_true]; exact fits_renameKeys hfit)
    refine ⟨.uniform s2, ?_, (refresh_uniform k2 hs2).1, rfl⟩
    unfold postImport
    simp only
    rw [hids, k1, Res.andThen_ok, hs2]
    rfl
  | coverage s => simp [kind] at hk

/-! ## Storages -/

theorem storeRename_eq {d : Dict Int (List V)} (hn : d.keys.Nodup) : Table.storeRename d = renameKeys d := by
  have key : ∀ (rest done : Dict Int (List V)), (∀ k ∈ rest.keys, 0 ≤ k) → (∀ k ∈ done.keys, k < 0) →
      rest.keys.Nodup → (∀ k ∈ rest.keys, importedId k ∉ done.keys) →
      rest.foldl (fun acc p => (Dict.set acc (importedId p.1) p.2).erase p.1) (rest ++ done)
        = done ++ rest.map fun p => (importedId p.1, p.2) := by
    intro rest
    induction rest with
    | nil => simp
    | cons p rest ih =>
      obtain ⟨id, rows⟩ := p
      intro done h1 h2 h3 h4
      simp only [keys_cons, List.nodup_cons] at h3
      have hid : 0 ≤ id := h1 id (by simp)
      simp only [List.foldl_cons]
      rw [set_of_not_mem]
      · have : Dict.erase ((id, rows) :: rest ++ done ++ [(importedId id, rows)]) id
            = rest ++ (done ++ [(importedId id, rows)]) := by simp [Dict.erase]
        rw [this, ih]
        · simp
        · intro k hk; exact h1 k (by simp [hk])
        · intro k hk
          rw [keys_append, List.mem_append] at hk
          rcases hk with hk | hk
          · exact h2 k hk
          · simp at hk; rw [hk]; exact importedId_neg id
        · exact h3.2
        · intro k hk hm
          rw [keys_append, List.mem_append] at hm
          rcases hm with hm | hm
          · exact h4 k (by simp [hk]) hm
          · simp at hm
            have := importedId_inj (h1 k (by simp [hk])) hid hm
            subst this; exact h3.1 hk
      · show importedId id ∉ Dict.keys ((id, rows) :: rest ++ done)
        rw [keys_append, List.mem_append]
        rintro (hm | hm)
        · have := h1 _ hm
          have := importedId_neg id
          omega
        · exact h4 id (by simp) hm
  have := key (d.filter fun p => 0 ≤ p.1) [] (by
      intro k hk
      obtain ⟨p, hp, rfl⟩ := List.mem_map.1 hk
      simpa using (List.mem_filter.1 hp).2) (by simp)
    (List.Nodup.sublist ((List.filter_sublist).map _) hn) (by simp)
  simp only [List.append_nil, List.nil_append] at this
  unfold Table.storeRename renameKeys
  exact this

theorem stores_get {d : Dict String (Store V)} (hn : d.keys.Nodup) {name : String} {s : Store V}
    (hm : (name, s) ∈ d) {m : Dict Int (List V)} (hs : s = .plain m ∨ s = .tag m) :
    Dict.get? (d.filterMap fun (p : String × Store V) => match p.2 with
      | .plain d => some (p.1, d)
      | .tag d => some (p.1, d)
      | .virt _ _ => none) name = some m := by
  apply get?_of_mem
  · unfold keys
    rw [List.map_filterMap]
    have : (d.filterMap fun (p : String × Store V) => Option.map Prod.fst (match p.2 with
        | .plain d => some (p.1, d)
        | .tag d => some (p.1, d)
        | .virt _ _ => none)).Sublist (d.map Prod.fst) := by
      clear hn hm
      induction d with
      | nil => simp
      | cons x d ih =>
        obtain ⟨n, s⟩ := x
        cases s with
        | plain m => simpa using ih
        | tag m => simpa using ih
        | virt k t => simpa using List.Sublist.cons _ ih
    exact List.Nodup.sublist this hn
  · rw [List.mem_filterMap]
    rcases hs with rfl | rfl
    · exact ⟨_, hm, rfl⟩
    · exact ⟨_, hm, rfl⟩

theorem update_nil {d : Dict Int (List V)} (h : d.keys.Nodup) :
    Dict.update ([] : Dict Int (List V)) d = d := ofPairs_of_nodup h

theorem loadStores_fresh {t : Table V} {q : List (Entry V)} (h : Inv t q)
    (d1 : Dict String (Store V)) (pre : Dict String (Store V)) (rest : Dict String (Store V))
    (heq : t.data = pre ++ rest)
    (hk : d1.map (fun p => (p.1, p.2.kind)) = rest.map (fun p => (p.1, p.2.kind)))
    (he : ∀ n s, (n, s) ∈ d1 → StoreOk ([] : List (Entry V)) n s) :
    Table.loadStores (Table.storeLegacy t).stores d1 = .ok rest := by
  induction d1 generalizing pre rest with
  | nil =>
    cases rest with
    | nil => rfl
    | cons x rest => simp at hk
  | cons y d1 ih =>
    obtain ⟨n, s1⟩ := y
    cases rest with
    | nil => simp at hk
    | cons x rest =>
      obtain ⟨n', s⟩ := x
      simp only [List.map_cons, List.cons.injEq, Prod.mk.injEq] at hk
      obtain ⟨⟨rfl, hk1⟩, hk2⟩ := hk
      have ih := ih (pre ++ [(n, s)]) rest (by simp [heq]) hk2 (fun n s hm => he n s (by simp [hm]))
      have hm : (n, s) ∈ t.data := by rw [heq]; simp
      have hs := h.stores n s hm
      have he1 := he n s1 (by simp)
      have hnq : (Dict.keys (q.map fun e => (e.id, e.rows n))).Nodup := by
        simpa [keys, Function.comp_def] using h.nodup
      cases s with
      | plain m =>
        cases s1 with
        | plain m1 =>
          simp only [StoreOk, List.map_nil] at he1; subst he1
          simp only [Table.loadStores]
          have : (Table.storeLegacy t).stores.get? n = some m := stores_get h.names hm (Or.inl rfl)
          rw [this]
          simp only [ih, Except.map]
          rw [update_nil (by simp only [StoreOk] at hs; rw [hs]; exact hnq)]
        | tag m1 => simp [Store.kind] at hk1
        | virt k tg => simp [Store.kind] at hk1
      | tag m =>
        cases s1 with
        | tag m1 =>
          simp only [StoreOk, List.map_nil] at he1; subst he1
          simp only [Table.loadStores]
          have : (Table.storeLegacy t).stores.get? n = some m := stores_get h.names hm (Or.inr rfl)
          rw [this]
          simp only [ih, Except.map]
          rw [update_nil (by simp only [StoreOk] at hs; rw [hs]; exact hnq)]
        | plain m1 => simp [Store.kind] at hk1
        | virt k tg => simp [Store.kind] at hk1
      | virt k tg =>
        cases s1 with
        | virt k1 tg1 =>
          simp only [Store.kind, ColKind.virt.injEq] at hk1
          obtain ⟨rfl, rfl⟩ := hk1
          simp only [Table.loadStores, ih, Except.map]
        | plain m1 => simp [Store.kind] at hk1
        | tag m1 => simp [Store.kind] at hk1

/-- Virtual columns refer to columns of the table. -/
theorem buildStores_targets {cols : Dict String ColKind} {acc x : Dict String (Store V)}
    (h : Table.buildStores cols acc = .ok x) :
    ∀ n k tgt, (n, ColKind.virt k tgt) ∈ cols → tgt ∈ acc.keys ∨ tgt ∈ cols.keys := by
  induction cols generalizing acc with
  | nil => simp
  | cons p cols ih =>
    obtain ⟨n0, c⟩ := p
    intro n k tgt hm
    have step : ∀ s : Store V, Table.buildStores cols (acc.set n0 s) = .ok x → (n, ColKind.virt k tgt) ∈ cols →
        tgt ∈ acc.keys ∨ tgt ∈ Dict.keys ((n0, c) :: cols) := by
      intro s hb hm
      rcases ih hb n k tgt hm with h | h
      · rcases mem_keys_set.1 h with h | h
        · right; simp [h]
        · left; exact h
      · right; simp [h]
    cases c with
    | plain =>
      simp only [Table.buildStores] at h
      refine step _ h ?_
      simpa using hm
    | tag =>
      simp only [Table.buildStores] at h
      refine step _ h ?_
      simpa using hm
    | virt k' t' =>
      simp only [Table.buildStores] at h
      split at h
      · rename_i hc
        rcases List.mem_cons.1 hm with hm | hm
        · simp only [Prod.mk.injEq, ColKind.virt.injEq] at hm
          left; rw [hm.2.2]; exact contains_iff.1 hc
        · exact step _ h hm
      · simp at h

theorem rebuildVirtual_same {t : Table V} {q : List (Entry V)} (h : Inv t q) {x : Dict String (Store V)}
    (hx : Table.buildStores t.columns [] = .ok x) :
    Table.rebuildVirtual t.columns t.data = .ok t.data := by
  have htgt := buildStores_targets hx
  have key : ∀ cols : Dict String ColKind, (∀ p ∈ cols, p ∈ t.columns) →
      Table.rebuildVirtual cols t.data = .ok t.data := by
    intro cols
    induction cols with
    | nil => intro _; rfl
    | cons p cols ih =>
      obtain ⟨n, c⟩ := p
      intro hsub
      have ih := ih (fun p hp => hsub p (by simp [hp]))
      cases c with
      | plain => exact ih
      | tag => exact ih
      | virt k tgt =>
        have hm := hsub (n, .virt k tgt) (by simp)
        have ht : tgt ∈ t.data.keys := by
          rcases htgt n k tgt hm with h' | h'
          · simp at h'
          · rwa [h.keys_eq] at h'
        have hd : (n, Store.virt k tgt) ∈ t.data := by
          rw [← h.shape] at hm
          obtain ⟨⟨n', s⟩, hm1, hm2⟩ := List.mem_map.1 hm
          simp only [Prod.mk.injEq] at hm2
          obtain ⟨rfl, hm2⟩ := hm2
          cases s with
          | plain m => simp [Store.kind] at hm2
          | tag m => simp [Store.kind] at hm2
          | virt k' t' =>
            simp only [Store.kind, ColKind.virt.injEq] at hm2
            obtain ⟨rfl, rfl⟩ := hm2
            exact hm1
        simp only [Table.rebuildVirtual]
        rw [if_pos (contains_iff.2 ht), set_same (get?_of_mem h.names hd)]
        exact ih
  exact key _ (fun _ h => h)

/-- Importing an export into a new table. -/
theorem restoreLegacy_ok {t t1 : Table V} {q : List (Entry V)} (h : Inv t q) (h1 : Inv t1 ([] : List (Entry V)))
    (hcols : t1.columns = t.columns) {x : Dict String (Store V)}
    (hx : Table.buildStores t.columns [] = .ok x) (hneg : NegFirst (q.map Entry.id))
    (hfit : ∀ e ∈ q, fitsInt64 e.id = true) (hs : t.sampler.kind ≠ 2) (he : t.ejector.kind ≠ 2) :
    ∃ t2, Table.restoreLegacy (Table.storeLegacy t) t1 = (t2, .ok ()) ∧ Inv t2 (renameAll q) ∧
      t2.columns = t.columns ∧ t2.lengthKey = t.lengthKey ∧ t2.maxlen = t.maxlen ∧ t2.filled = t.filled ∧
      t2.sampler.kind = t.sampler.kind ∧ t2.ejector.kind = t.ejector.kind := by
  have hn : (lensOf q).keys.Nodup := by simpa using h.nodup
  have hneg' : NegFirst (lensOf q).keys := by rw [keys_lensOf]; exact hneg
  have hfit' : ∀ k ∈ (lensOf q).keys, fitsInt64 k = true := by
    intro k hk
    rw [keys_lensOf] at hk
    obtain ⟨e, he, rfl⟩ := List.mem_map.1 hk
    exact hfit e he
  obtain ⟨s', s1, s2, s3⟩ := Strategy.postImport_ok h.sampler hn hneg' hfit' hs
  obtain ⟨e', e1, e2, e3⟩ := Strategy.postImport_ok h.ejector hn hneg' hfit' he
  have hload := loadStores_fresh h t1.data [] t.data rfl (by rw [h1.shape, h.shape, hcols]) h1.stores
  have hreb := rebuildVirtual_same h hx
  have hlens : renameKeys (lensOf q) = lensOf (renameAll q) := renameKeys_map q Entry.len (fun _ _ => rfl)
  have hren : Table.renameLengths t.lengths = lensOf (renameAll q) := by
    unfold Table.renameLengths
    rw [h.lengths]
    show Dict.ofPairs (renameKeys (lensOf q)) = _
    rw [ofPairs_of_nodup (renameKeys_nodup hn), hlens]
  refine ⟨{ t1 with
      ejector := e', sampler := s', lengthKey := t.lengthKey, maxlen := t.maxlen, columns := t.columns,
      lengths := lensOf (renameAll q), filled := t.filled, total := (((lensOf (renameAll q)).values.sum : Nat) : Int),
      data := t.data.map fun p => (p.1, Table.Store.postImport p.2) }, ?_, ?_, rfl, rfl, rfl, rfl, s3, e3⟩
  · unfold Table.restoreLegacy
    have hload' : Table.loadStores (Table.storeLegacy t).stores t1.data = .ok t.data := hload
    simp only [hload']
    have : (Table.storeLegacy t).columns = t.columns := rfl
    simp only [this, hreb]
    have hl : Table.renameLengths (Table.storeLegacy t).lengths = lensOf (renameAll q) := hren
    simp only [hl]
    have hs1 : (Table.storeLegacy t).sampler.postImport = (s', .ok ()) := s1
    have he1 : (Table.storeLegacy t).ejector.postImport = (e', .ok ()) := e1
    simp only [hs1, Res.lift, Res.andThen_ok, he1]
    rfl
  · refine ⟨renameAll_nodup h.nodup, rfl, ?_, ?_, ?_, ?_, by rw [← hlens]; exact s2, by rw [← hlens]; exact e2⟩
    · simp [Spec.total, lensOf, values, Function.comp_def]
    · simp only [List.map_map]
      rw [← h.shape]
      apply List.map_congr_left
      rintro ⟨n, s⟩ _
      cases s <;> rfl
    · simp only [keys, List.map_map]
      have := h.names
      simpa [keys, Function.comp_def] using this
    · intro name s hm
      simp only [List.mem_map] at hm
      obtain ⟨⟨n, s0⟩, hm, heq⟩ := hm
      injection heq with a b; subst a b
      have hst := h.stores n s0 hm
      have hk : (Dict.keys (q.map fun e => (e.id, e.rows n))).Nodup := by
        simpa [keys, Function.comp_def] using h.nodup
      cases s0 with
      | plain d =>
        simp only [StoreOk, Table.Store.postImport] at hst ⊢
        subst hst
        rw [storeRename_eq hk]
        exact renameKeys_map q (fun e => e.rows n) (fun _ _ => rfl)
      | tag d =>
        simp only [StoreOk, Table.Store.postImport] at hst ⊢
        subst hst
        rw [storeRename_eq hk]
        exact renameKeys_map q (fun e => e.rows n) (fun _ _ => rfl)
      | virt k tg => trivial

end Verif
