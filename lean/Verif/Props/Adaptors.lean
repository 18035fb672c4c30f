import Verif.Props.Sampling
import Verif.Lemmas.Adaptors

/-!
# What the builders' tables deliver: C13, C71, C72, C74
-/

namespace Verif.Props

open Verif Spec

variable {V : Type u}

/-! ## C72 -/

/-- C72: the observation adaptor moves every configured tensor, and its `next_` counterpart, unchanged
into the two dictionaries (in the configured order and under the configured names), takes them out of the
batch, and leaves everything else alone. -/
theorem C72_dict_obs {b : Batch V} (hb : b.keys.Nodup) {keyMap : List (String × String)}
    (hk : (keyMap.flatMap fun p => [p.1, "next_" ++ p.1]).Nodup)
    (hin : ∀ p ∈ keyMap, (∃ rows, b.get? p.1 = some (.col rows)) ∧
      ∃ rows, b.get? ("next_" ++ p.1) = some (.col rows))
    (ho : (keyMap.map Prod.snd).Nodup) :
    ∃ (r : Batch V) (o x : Dict String (List (Cell V))), Adaptors.dictObs keyMap true b = .ok r ∧
      r.get? "observation" = some (.obs o) ∧ r.get? "next_observation" = some (.obs x) ∧
      o.keys = keyMap.map Prod.snd ∧ x.keys = keyMap.map Prod.snd ∧
      (∀ p ∈ keyMap, ∃ rows rows', b.get? p.1 = some (.col rows) ∧ o.get? p.2 = some rows ∧
        b.get? ("next_" ++ p.1) = some (.col rows') ∧ x.get? p.2 = some rows') ∧
      ∀ name, name ≠ "observation" → name ≠ "next_observation" →
        r.get? name = if ∃ p ∈ keyMap, name = p.1 ∨ name = "next_" ++ p.1 then none else b.get? name := by
  have htaken : Adaptors.taken true keyMap = keyMap.flatMap fun p => [p.1, "next_" ++ p.1] := by
    simp [Adaptors.taken]
  have hmem : ∀ name, name ∈ Adaptors.taken true keyMap ↔
      ∃ p ∈ keyMap, name = p.1 ∨ name = "next_" ++ p.1 := by
    intro name; rw [htaken, List.mem_flatMap]; simp
  obtain ⟨b', h1, h2, h3⟩ := Adaptors.dictObsLoop_ok true keyMap b [] [] hb (by rw [htaken]; exact hk)
    (by
      intro k hk'
      obtain ⟨p, hp, h | h⟩ := (hmem k).1 hk'
      · rw [h]; exact (hin p hp).1
      · rw [h]; exact (hin p hp).2) (by simpa using ho) (by simpa using ho)
  simp only [List.nil_append, if_true] at h1
  refine ⟨_, keyMap.map (fun p => (p.2, Adaptors.colOf b p.1)),
    keyMap.map (fun p => (p.2, Adaptors.colOf b ("next_" ++ p.1))),
    by unfold Adaptors.dictObs; rw [h1]; rfl, ?_, ?_, ?_, ?_, ?_, ?_⟩
  · rw [Dict.get?_set_ne (by decide), Dict.get?_set_self]
  · rw [Dict.get?_set_self]
  · simp [Dict.keys, Function.comp_def]
  · simp [Dict.keys, Function.comp_def]
  · intro p hp
    obtain ⟨⟨rows, hr⟩, rows', hr'⟩ := hin p hp
    refine ⟨rows, rows', hr, ?_, hr', ?_⟩
    · apply Dict.get?_of_mem
      · simpa [Dict.keys, Function.comp_def] using ho
      · exact List.mem_map.2 ⟨p, hp, by simp [Adaptors.colOf, hr]⟩
    · apply Dict.get?_of_mem
      · simpa [Dict.keys, Function.comp_def] using ho
      · exact List.mem_map.2 ⟨p, hp, by simp [Adaptors.colOf, hr']⟩
  · intro name hn hn'
    rw [Dict.get?_set_ne (Ne.symm hn'), Dict.get?_set_ne (Ne.symm hn), h3]
    by_cases hm : name ∈ Adaptors.taken true keyMap
    · rw [if_pos hm, if_pos ((hmem name).1 hm)]
    · rw [if_neg hm, if_neg (fun h => hm ((hmem name).2 h))]

/-- C72: a missing tensor is reported, not skipped. -/
theorem C72_missing_key {b : Batch V} {key out : String} {rest : List (String × String)}
    (hmiss : b.get? key = none) :
    Adaptors.dictObs ((key, out) :: rest) true b = .error .keyError := by
  simp [Adaptors.dictObs, Adaptors.dictObsLoop, Adaptors.popCol, hmiss, bind, Except.bind]

/-! ## C71 -/

/-- C71 is false: the batch is returned as it was, whatever the cast is. -/
theorem C71_false (f : Cell V → Cell V) (key : String) (b : Batch V) (rows : List (Cell V))
    (h : b.get? key = some (.col rows)) :
    Adaptors.keyCast f key b = .ok b := by
  simp [Adaptors.keyCast, h]

/-- C71: so the requested type is delivered only if every row already had it. -/
theorem C71_casts_only_if_nothing_to_do_partial (f : Cell V → Cell V) (key : String)
    {b r : Batch V} {rows : List (Cell V)} (h : b.get? key = some (.col rows))
    (hr : Adaptors.keyCast f key b = .ok r) :
    r.get? key = some (.col (rows.map f)) ↔ ∀ x ∈ rows, f x = x := by
  rw [C71_false f key b rows h] at hr
  cases hr
  rw [h]
  simp only [Option.some.injEq, Out.col.injEq]
  constructor
  · intro heq x hx
    obtain ⟨i, hi, rfl⟩ := List.mem_iff_getElem.1 hx
    have := congrArg (fun l => l[i]?) heq
    simp only [List.getElem?_map, List.getElem?_eq_getElem hi, Option.map_some, Option.some.injEq] at this
    exact this.symm
  · intro hid
    conv => lhs; rw [← List.map_id rows]
    apply List.map_congr_left
    intro x hx
    exact (hid x hx).symm

/-! ## C158 -/

/-- What scaling adaptors make of a column: the functions for its key, one after the other -/
def scaled (l : List ((Cell V → Cell V) × String)) (k : String) (x : Cell V) : Cell V :=
  (l.filter fun a => a.2 = k).foldl (fun x a => a.1 x) x

/-- C158: scaling adaptors change their columns only, each row by the factors for its key, and no column is added, lost or moved. -/
theorem C158 (n : Nat) (l : List ((Cell V → Cell V) × String)) (b : Batch V) (h : ∀ a ∈ l, ∃ rows, b.get? a.2 = some (.col rows)) :
    ∃ r, adapt n (l.map fun a => Adaptor.keyScale a.1 a.2) b = .ok r ∧ r.keys = b.keys ∧
      (∀ k rows, b.get? k = some (.col rows) → r.get? k = some (.col (rows.map (scaled l k)))) ∧
      ∀ k, (∀ rows, b.get? k ≠ some (.col rows)) → r.get? k = b.get? k := by
  induction l generalizing b with
  | nil => exact ⟨b, rfl, rfl, fun k rows hk => by rw [hk]; exact congrArg (some ∘ Out.col) (List.map_id rows).symm, fun _ _ => rfl⟩
  | cons a l ih =>
    obtain ⟨rows0, h0⟩ := h a (by simp)
    have happ : Adaptors.keyScale a.1 a.2 b = .ok (b.set a.2 (.col (rows0.map a.1))) := by simp only [Adaptors.keyScale, h0]
    obtain ⟨r, h1, h2, h3, h4⟩ := ih (b.set a.2 (.col (rows0.map a.1))) (fun x hx => by
      rw [Dict.get?_set]
      split
      · exact ⟨_, rfl⟩
      · exact h x (List.mem_cons_of_mem _ hx))
    refine ⟨r, ?_, ?_, fun k rows hk => ?_, fun k hk => ?_⟩
    · simp only [List.map_cons, adapt, Adaptor.apply, happ]
      exact h1
    · rw [h2, Dict.keys_set_of_mem (Dict.mem_keys_of_get? h0)]
    · by_cases hak : a.2 = k
      · have hr : rows = rows0 := by
          rw [← hak, h0] at hk
          injection hk with hk
          injection hk with hk
          exact hk.symm
        rw [h3 k (rows0.map a.1) (by rw [Dict.get?_set, if_pos hak]), List.map_map, hr]
        congr 2
        refine List.map_congr_left fun x _ => ?_
        simp [scaled, hak]
      · rw [h3 k rows (by rw [Dict.get?_set, if_neg hak, hk])]
        congr 2
        refine List.map_congr_left fun x _ => ?_
        simp [scaled, hak]
    · have hak : a.2 ≠ k := fun e => hk rows0 (e ▸ h0)
      rw [h4 k (by rw [Dict.get?_set, if_neg hak]; exact hk), Dict.get?_set, if_neg hak]

/-- C158: an adaptor whose column is missing is reported, wherever it stands among the others. -/
theorem C158_missing (n : Nat) (l : List ((Cell V → Cell V) × String)) (b : Batch V) (hcol : ∀ a ∈ l, ∀ d, b.get? a.2 ≠ some (.obs d))
    (h : ∃ a ∈ l, b.get? a.2 = none) : adapt n (l.map fun a => Adaptor.keyScale a.1 a.2) b = .error .keyError := by
  induction l generalizing b with
  | nil => obtain ⟨a, ha, -⟩ := h; exact absurd ha (by simp)
  | cons a l ih =>
    simp only [List.map_cons, adapt, Adaptor.apply]
    cases h0 : b.get? a.2 with
    | none => simp only [Adaptors.keyScale, h0]; rfl
    | some o =>
      cases o with
      | obs d => exact absurd h0 (hcol a (by simp) d)
      | col rows =>
        simp only [Adaptors.keyScale, h0]
        refine ih (b.set a.2 (.col (rows.map a.1))) (fun x hx d => ?_) ?_
        · rw [Dict.get?_set]
          split
          · simp
          · exact hcol x (List.mem_cons_of_mem _ hx) d
        · obtain ⟨x, hx, hn⟩ := h
          have hne : a.2 ≠ x.2 := fun e => by rw [← e, h0] at hn; cases hn
          refine ⟨x, (List.mem_cons.1 hx).resolve_left fun e => hne (by rw [e]), ?_⟩
          rw [Dict.get?_set, if_neg hne, hn]

/-- Multiplication of a row that is a number -/
def Ex158.times (c : Int) : Cell Int → Cell Int
  | .row x => .row (c * x)
  | x => x

/-- Rewards are scaled twice, the actions stay. -/
example : ∃ r : Batch Int, adapt 1 ([(Ex158.times 10, "rewards"), (Ex158.times 3, "rewards")].map fun a => Adaptor.keyScale a.1 a.2)
      [("actions", .col [.row 5]), ("rewards", .col [.row 1, .row 2])] = .ok r ∧
    r.get? "rewards" = some (.col [.row 30, .row 60]) ∧ r.get? "actions" = some (.col [.row 5]) := by
  obtain ⟨r, h1, -, h3, -⟩ := C158 1 [(Ex158.times 10, "rewards"), (Ex158.times 3, "rewards")]
    ([("actions", .col [.row 5]), ("rewards", .col [.row 1, .row 2])] : Batch Int) (by
      intro a ha
      simp only [List.mem_cons, List.not_mem_nil, or_false] at ha
      rcases ha with rfl | rfl <;> exact ⟨_, rfl⟩)
  exact ⟨r, h1, h3 "rewards" [.row 1, .row 2] rfl, h3 "actions" [.row 5] rfl⟩

/-! ## C13 -/

theorem builder_names (nstep term : Bool) (keys : List String) :
    (Builder.columns nstep term keys).map Column.name
      = ["actions", "dones", "masks", "rewards"] ++ (keys.flatMap fun k => [k, "next_" ++ k])
        ++ if term then ["terminal"] else [] := by
  unfold Builder.columns
  simp only [List.map_append, List.map_flatMap, Builder.obsColumns]
  cases term <;> rfl

theorem builder_targeted {nstep term : Bool} {keys : List String}
    (hnames : ((Builder.columns nstep term keys).map Column.name).Nodup) :
    WellTargeted (Builder.columns nstep term keys) := by
  intro c hc k tgt hk
  have hof : Dict.ofPairs ((Builder.columns nstep term keys).map fun c => (c.name, c.kind))
      = (Builder.columns nstep term keys).map fun c => (c.name, c.kind) :=
    ofPairs_of_nodup (by simpa [Function.comp_def] using hnames)
  rw [hof]
  apply Dict.get?_of_mem
  · simpa [Dict.keys, Function.comp_def] using hnames
  · unfold Builder.columns at hc ⊢
    simp only [List.mem_append, List.mem_cons, List.not_mem_nil, or_false, List.mem_flatMap,
      Builder.obsColumns] at hc
    rcases hc with (hc | ⟨key, hkey, hc⟩) | hc
    · rcases hc with rfl | rfl | rfl | rfl <;> simp at hk <;> obtain ⟨_, rfl⟩ := hk <;> simp
    · rcases hc with rfl | rfl
      · simp at hk
      · simp only [ColKind.virt.injEq] at hk
        obtain ⟨_, rfl⟩ := hk
        simp only [List.map_append, List.mem_append, List.map_flatMap, List.mem_flatMap]
        exact Or.inl (Or.inr ⟨key, hkey, by simp [Builder.obsColumns]⟩)
    · cases term <;> simp at hc
      subst hc
      simp at hk

theorem builder_columns_eq {nstep term : Bool} {keys : List String} {maxlen : Int} {ops : List (Op V)}
    {t : Table V} {q : List (Entry V)} {lk : String}
    (hnames : ((Builder.columns nstep term keys).map Column.name).Nodup)
    (h : Hist (Builder.columns nstep term keys) maxlen lk ops t q) :
    t.columns = (Builder.columns nstep term keys).map fun c => (c.name, c.kind) := by
  rw [h.columns]
  exact ofPairs_of_nodup (by simpa [Function.comp_def] using hnames)

theorem sublist_flatMap_pair (keys : List String) (f : String → String) :
    keys.Sublist (keys.flatMap fun k => [k, f k]) := by
  induction keys with
  | nil => exact List.Sublist.slnil
  | cons k keys ih =>
    rw [List.flatMap_cons]
    exact List.Sublist.cons_cons k (List.Sublist.cons _ ih)

/-- C13: the `terminal` value delivered for window `k` is the episode's tag if that is 1, and otherwise 0
or 1 as the window does or does not end at the last transition of the episode. The action and mask
columns of the same batch show the same windows, and the mask column is not touched. The batch is
delivered without an error. -/
theorem C13_terminal_value {nstep : Bool} {keys : List String} {maxlen : Int} {t0 t t' : Table V}
    {ops : List (Op V)} (hc : Created (Builder.columns nstep true keys) maxlen "actions" t0)
    (hr : Run t0 ops t) (hnames : ((Builder.columns nstep true keys).map Column.name).Nodup)
    (hep : ∀ e ∈ added (acts "actions" ops), EpisodeOk (Builder.columns nstep true keys) e)
    {count n : Nat} (hn : 0 < n) (hlong : ∀ p ∈ t.lengths, n ≤ p.2) {c r : Nat → Nat}
    {junk : String → Nat → Cell V} {out : Dict String (List (Cell V))}
    (hs : Table.sample count n c r junk t = (t', .ok out)) (one : V → Bool) :
    ∃ (b : Batch V) (ws : List (Entry V × Nat)) (actions masks term : List (Cell V)),
      Table.sampleAdapted (Builder.adaptors one true keys) count n c r junk t = (t', .ok b) ∧
      b.get? "actions" = some (.col actions) ∧ b.get? "masks" = some (.col masks) ∧
      b.get? "terminal" = some (.col term) ∧
      ws.length = count ∧ term.length = count ∧ masks.length = count * n ∧
      ∀ (k : Nat) (e : Entry V) (s : Nat), ws[k]? = some (e, s) → Holds t e ∧ s + n ≤ e.len ∧
        (∀ i, i < n → ∃ v, (e.rows "actions")[s + i]? = some v ∧ actions[k * n + i]? = some (.row v)) ∧
        (∀ i, i < n → masks[k * n + i]? = some (.bit (decide (s + i + 1 ≠ e.len)))) ∧
        ∃ tag rest, e.rows "terminal" = tag :: rest ∧
          term[k]? = some (if one tag then .row tag else .bit (decide (s + n ≠ e.len))) := by
  have hw := builder_targeted hnames
  obtain ⟨q, h⟩ := run_hist hc hr
  have hcols := builder_columns_eq hnames h
  obtain ⟨ws, h1, h2, h3⟩ := batch_at hc hr hw hep hn hlong hs
  have hterm : ("terminal", ColKind.tag) ∈ t.columns := by
    rw [hcols]; simp [Builder.columns]
  have hmask : ("masks", ColKind.virt .masks "actions") ∈ t.columns := by
    rw [hcols]; simp [Builder.columns]
  have hact : ("actions", ColKind.plain) ∈ t.columns := by
    rw [hcols]; simp [Builder.columns]
  obtain ⟨tag, h4, h5, h9⟩ := h3 _ _ hterm
  obtain ⟨masks, h4', h5', h9'⟩ := h3 _ _ hmask
  obtain ⟨acts', h4a, _, h9a⟩ := h3 _ _ hact
  simp only [rowsPerWindow, Nat.mul_one, Nat.lt_one_iff] at h5 h5' h9 h9' h9a
  obtain ⟨last, h6, h7, h8⟩ := Adaptors.lastOfGroups_ok hn h5'
  -- the batch before the adaptors
  have hget : ∀ name, Dict.get? (out.map fun p => (p.1, Out.col p.2)) name = (out.get? name).map .col :=
    fun name => get?_map_snd out (fun _ rows => Out.col rows) name
  have hbk : (Dict.keys (out.map fun p => (p.1, Out.col p.2))) = out.keys := by
    simp [Dict.keys, Function.comp_def]
  have hoknodup : out.keys.Nodup := by
    obtain ⟨_, _, _, hkeys, _⟩ := C09_windows_are_genuine hc hr hw hep hn hlong hs
    rw [hkeys, hcols]; simpa [Dict.keys, Function.comp_def] using hnames
  have hnd := hnames
  rw [builder_names nstep true keys, List.nodup_append] at hnd
  obtain ⟨hnd1, _, hnd2⟩ := hnd
  have hnd3 := List.nodup_append.1 hnd1
  have hdisj : ∀ name, name ∈ ["actions", "dones", "masks", "rewards"] ∨ name = "terminal" →
      ¬ ∃ p ∈ (keys.map fun k => (k, k)), name = p.1 ∨ name = "next_" ++ p.1 := by
    intro name hname ⟨p, hp, hor⟩
    obtain ⟨k, hk, rfl⟩ := List.mem_map.1 hp
    have hm : name ∈ keys.flatMap fun k => [k, "next_" ++ k] :=
      List.mem_flatMap.2 ⟨k, hk, by rcases hor with rfl | rfl <;> simp⟩
    rcases hname with hname | ht
    · exact hnd3.2.2 name hname name hm rfl
    · exact hnd2 name (List.mem_append_right _ hm) name (by simp [ht]) rfl
  obtain ⟨rb, o, x, d1, _, _, _, _, _, d2⟩ := C72_dict_obs (b := out.map fun p => (p.1, Out.col p.2))
    (by rw [hbk]; exact hoknodup) (keyMap := keys.map fun k => (k, k))
    (by rw [List.flatMap_map]; exact hnd3.2.1)
    (by
      intro p hp
      obtain ⟨k, hk, rfl⟩ := List.mem_map.1 hp
      have hm : ∀ name kind, (name, kind) ∈ t.columns →
          ∃ rows, Dict.get? (out.map fun p => (p.1, Out.col p.2)) name = some (.col rows) := by
        intro name kind hm
        obtain ⟨col, hcol, _⟩ := h3 name kind hm
        exact ⟨col, by rw [hget, hcol]; rfl⟩
      refine ⟨hm k .plain ?_, hm ("next_" ++ k) (.virt (if nstep then .nextLast else .next) k) ?_⟩
      · rw [hcols]
        simp only [Builder.columns, List.map_append, List.mem_append, List.map_flatMap, List.mem_flatMap]
        exact Or.inl (Or.inr ⟨k, hk, by simp [Builder.obsColumns]⟩)
      · rw [hcols]
        simp only [Builder.columns, List.map_append, List.mem_append, List.map_flatMap, List.mem_flatMap]
        exact Or.inl (Or.inr ⟨k, hk, by simp [Builder.obsColumns]⟩))
    (by
      rw [List.map_map]
      have : keys.Nodup := (sublist_flatMap_pair keys ("next_" ++ ·)).nodup hnd3.2.1
      simpa [Function.comp_def] using this)
  have e0 : ∀ name col, name ∈ ["actions", "dones", "masks", "rewards"] ∨ name = "terminal" →
      name ≠ "observation" → name ≠ "next_observation" → out.get? name = some col →
      rb.get? name = some (.col col) := by
    intro name col hname hn1 hn2 hcol
    rw [d2 _ hn1 hn2, if_neg (hdisj _ hname), hget, hcol]; rfl
  have e1 := e0 "terminal" tag (Or.inr rfl) (by decide) (by decide) h4
  have e2 := e0 "masks" masks (Or.inl (by simp)) (by decide) (by decide) h4'
  have e3 := e0 "actions" acts' (Or.inl (by simp)) (by decide) (by decide) h4a
  obtain ⟨res, g1, g2, g3⟩ := Adaptors.whereOne_ok one (a := tag) (b := last) (by rw [h5, h7])
  refine ⟨rb.set "terminal" (.col res), ws, acts', masks, res, ?_,
    by rw [Dict.get?_set_ne (by decide), e3], by rw [Dict.get?_set_ne (by decide), e2],
    Dict.get?_set_self, h1, by rw [g2, h5], h5', ?_⟩
  · unfold Table.sampleAdapted
    rw [hs]
    simp only [Res.andThen_ok, Builder.adaptors, if_true, adapt, Adaptor.apply, d1, bind, Except.bind,
      Adaptors.terminal, e1, e2, Out.tensor, h6, g1]
  · intro k e s hk
    obtain ⟨hadd, h10, h11⟩ := h2 _ (List.mem_of_getElem? hk)
    simp only at hadd h10 h11
    have hklt : k < count := by
      rw [← h1]; exact (List.getElem?_eq_some_iff.1 hk).1
    have hlen : (e.rows "actions").length = e.len := by
      obtain ⟨a, ha, heq⟩ := List.mem_filterMap.1 hadd
      cases a with
      | resize => simp at heq
      | add e' =>
        simp only [Option.some.injEq] at heq
        subst heq
        obtain ⟨op, _, hop⟩ := List.mem_filterMap.1 ha
        cases op with
        | add id seq draws =>
          simp only [Op.toAct, Option.some.injEq, Act.add.injEq] at hop
          rw [← hop]; rfl
        | resize => simp [Op.toAct] at hop
        | sample => simp [Op.toAct] at hop
    obtain ⟨hra, h12⟩ := h9a k _ hk
    obtain ⟨_, h13⟩ := h9' k _ hk
    obtain ⟨hrt, h14⟩ := h9 k _ hk
    have hmaskrow : ∀ i, i < n → masks[k * n + i]? = some (.bit (decide (s + i + 1 ≠ e.len))) := by
      intro i hi
      rw [h13 i hi]
      simp only [windowOf, List.getElem?_map, List.getElem?_range hi, Option.map_some, hlen, isLast]
      congr 2
      by_cases hx : s + i + 1 = e.len <;> simp [hx]
    refine ⟨h10, h11, ?_, hmaskrow, ?_⟩
    · intro i hi
      simp only [HasRows] at hra
      have a := h12 i hi
      simp only [windowOf, List.getElem?_map, rowsFrom_get _ _ hi] at a
      refine ⟨(e.rows "actions")[s + i]'(by omega), by rw [List.getElem?_eq_getElem], ?_⟩
      rw [a, List.getElem?_eq_getElem (by omega)]; rfl
    · simp only [HasRows] at hrt
      obtain ⟨v, rest, hv⟩ := List.exists_cons_of_ne_nil (l := e.rows "terminal") (by
        intro h0; rw [h0] at hrt; simp at hrt)
      refine ⟨v, rest, hv, ?_⟩
      have htag := h14 0 rfl
      simp only [Nat.add_zero, windowOf, List.getElem?_map, rowsFrom_get _ _ Nat.one_pos, hv,
        List.getElem?_cons_zero, Option.map_some] at htag
      have hlast := h8 k hklt
      rw [hmaskrow (n - 1) (by omega)] at hlast
      rw [g3 k _ _ htag hlast]
      simp only [Adaptors.isOne]
      have : s + (n - 1) + 1 = s + n := by omega
      simp only [this]

/-! ## C74 -/

/-- C74 is false: for a window that ends at the last transition of an episode tagged as interrupted, the
mask delivered is 0 all the same (only the separate `terminal` column knows better). -/
theorem C74_false {nstep : Bool} {keys : List String} {maxlen : Int} {t0 t t' : Table V}
    {ops : List (Op V)} (hc : Created (Builder.columns nstep true keys) maxlen "actions" t0)
    (hr : Run t0 ops t) (hnames : ((Builder.columns nstep true keys).map Column.name).Nodup)
    (hep : ∀ e ∈ added (acts "actions" ops), EpisodeOk (Builder.columns nstep true keys) e)
    {count n : Nat} (hn : 0 < n) (hlong : ∀ p ∈ t.lengths, n ≤ p.2) {c r : Nat → Nat}
    {junk : String → Nat → Cell V} {out : Dict String (List (Cell V))}
    (hs : Table.sample count n c r junk t = (t', .ok out)) (one : V → Bool) :
    ∃ (b : Batch V) (ws : List (Entry V × Nat)) (masks : List (Cell V)),
      Table.sampleAdapted (Builder.adaptors one true keys) count n c r junk t = (t', .ok b) ∧
      b.get? "masks" = some (.col masks) ∧ ws.length = count ∧
      ∀ (k : Nat) (e : Entry V) (s : Nat), ws[k]? = some (e, s) → Holds t e ∧
        (s + n = e.len → masks[k * n + (n - 1)]? = some (.bit false)) := by
  obtain ⟨b, ws, _, masks, _, h1, _, h3, _, h5, _, _, h7⟩ :=
    C13_terminal_value hc hr hnames hep hn hlong hs one
  refine ⟨b, ws, masks, h1, h3, h5, fun k e s hk => ?_⟩
  obtain ⟨h8, _, _, h9, _⟩ := h7 k e s hk
  refine ⟨h8, fun hend => ?_⟩
  rw [h9 (n - 1) (by omega), show s + (n - 1) + 1 = e.len by omega]
  simp

/-! ## The hypotheses can be met -/

namespace ExT

def cols : List Column := Builder.columns false true ["obs"]

def ep (a r o : List Nat) (term : Nat) : Seqn Nat :=
  [("actions", a), ("rewards", r), ("obs", o), ("terminal", [term])]

/-- interrupted -/
def e1 := ep [10, 11] [0, 0] [1, 2, 3] 1
/-- terminal -/
def e2 := ep [20, 21, 22] [0, 0, 0] [4, 5, 6, 7] 0

def t0 : Table Nat := (Table.new cols 5 (.fifo { randomOffset := false, perEpisode := false }) (.fifo {}) "actions").1
def t1 : Table Nat := (Table.addSequence [] 7 e1 t0).1
def t2 : Table Nat := (Table.addSequence [] 8 e2 t1).1
def ops : List (Op Nat) := [.add 7 e1 [], .add 8 e2 []]

theorem created : Created cols 5 "actions" t0 :=
  ⟨by decide, _, _, .fifo false false, .fifo true true, Prod.ext rfl (by decide +kernel)⟩

theorem run : Run t0 ops t2 :=
  Run.step (ops := [_]) (Run.step (ops := []) Run.nil _ _ _
    ⟨by decide +kernel, by decide +kernel, by decide +kernel⟩ (by decide +kernel) (by decide +kernel))
    _ _ _ ⟨by decide +kernel, by decide +kernel, by decide +kernel⟩ (by decide +kernel) (by decide +kernel)

theorem episodes : ∀ e ∈ added (acts "actions" ops), EpisodeOk cols e := by
  intro e he c hc
  have he' : e = entryOf 7 2 e1 ∨ e = entryOf 8 3 e2 := by
    simpa [added, acts, ops, Op.toAct, rowsOf, Dict.get?, e1, e2, ep, Table.wrapId] using he
  simp only [cols, Builder.columns, Builder.obsColumns, List.flatMap_cons, List.flatMap_nil, List.append_nil,
    List.cons_append, List.nil_append, List.mem_cons, List.not_mem_nil, or_false, if_true] at hc
  rcases hc with rfl | rfl | rfl | rfl | rfl | rfl | rfl <;> rcases he' with rfl | rfl <;>
    simp [entryOf, rowsOf, ep, e1, e2, Dict.get?]

def out : Dict String (List (Cell Nat)) := [
  ("actions", [.row 10, .row 11, .row 20, .row 21]),
  ("dones", [.bit false, .bit true, .bit false, .bit false]),
  ("masks", [.bit true, .bit false, .bit true, .bit true]),
  ("rewards", [.row 0, .row 0, .row 0, .row 0]),
  ("obs", [.row 1, .row 2, .row 4, .row 5]), ("next_obs", [.row 2, .row 3, .row 5, .row 6]),
  ("terminal", [.row 1, .row 0])]

theorem sampled : Table.sample 2 2 id id (fun _ _ => .bit false) t2
    = ((Table.sample 2 2 id id (fun _ _ => .bit false) t2).1, .ok out) :=
  Prod.ext rfl (by decide +kernel)

theorem names : (cols.map Column.name).Nodup := by decide +kernel

end ExT

example := C13_terminal_value ExT.created ExT.run ExT.names ExT.episodes (by decide) (by decide +kernel)
  ExT.sampled (· == 1)
example := C74_false ExT.created ExT.run ExT.names ExT.episodes (by decide)
  (by decide +kernel) ExT.sampled (· == 1)
example : (Table.sampleAdapted (Builder.adaptors (· == 1) true ["obs"]) 2 2 id id (fun _ _ => .bit false)
    ExT.t2).2.toOption.bind (fun b => b.get? "terminal") = some (.col [.row 1, .bit true]) := by decide +kernel
example := C72_dict_obs (V := Nat) (b := [("x", .col [.row 1]), ("next_x", .col [.row 2]), ("r", .col [])])
  (by decide) (keyMap := [("x", "y")]) (by decide +kernel)
  (by simp [Dict.get?]) (by decide)
example := C71_casts_only_if_nothing_to_do_partial (V := Nat) (fun _ => .row 0) "x"
  (b := [("x", .col [.row 1])]) (r := [("x", .col [.row 1])]) (rows := [.row 1]) rfl rfl

end Verif.Props
