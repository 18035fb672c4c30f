import Verif.Model.AgentProxy
import Verif.Lemmas.Dict
import Verif.Lemmas.List
import Mathlib.Data.List.Basic

/-!
# Policy outputs go to the right agent (C68)

For all observations, ended agents, keys and row-wise policies.
-/

namespace Verif

namespace Agent

variable {V R M : Type}

/-! ## Specification -/

/-- The episode of the agent has not ended. -/
def Spec.goesOn (o : Obs V M) : Prop := o.state ≠ .terminal ∧ o.state ≠ .interrupted

/-- A tuple without the log probabilities, which come second. -/
def Spec.noLogprobs : List R → List R
  | first :: _ :: rest => first :: rest
  | l => l

/-- The columns of a table of `m` columns. -/
def Spec.columns (rows : List (List V)) (m : Nat) : List (List V) :=
  (List.range m).map fun j => rows.filterMap (·[j]?)

/-- On a batch of `n` rows the policy `f` works on each row for itself, as `g` does. -/
def Spec.RowWise (f : List (Option (List V)) → Except Err (List (List R))) (g : List V → List R) (n w : Nat) : Prop :=
  (∀ r, (g r).length = w) ∧
  ∀ m rows, rows.length = n → (∀ r ∈ rows, r.length = m) →
    f ((Spec.columns rows m).map some) = .ok (Spec.columns (rows.map g) w)

/-- The same for a policy with one output. -/
def Spec.RowWise1 (f : List (Option (List V)) → Except Err (List R)) (g : List V → R) (n : Nat) : Prop :=
  ∀ m rows, rows.length = n → (∀ r ∈ rows, r.length = m) → f ((Spec.columns rows m).map some) = .ok (rows.map g)

/-- A policy that draws random numbers, for rows with `ok`: row `i` of the batch is worked on for itself, as `g i` does. The
drawn numbers are in `g`. -/
def Spec.Drawing (f : List (Option (List V)) → Except Err (List (List R))) (ok : List V → Prop) (g : Nat → List V → List R)
    (n w : Nat) : Prop :=
  (∀ i r, (g i r).length = w) ∧
  ∀ m rows, rows.length = n → (∀ r ∈ rows, r.length = m) → (∀ r ∈ rows, ok r) →
    f ((Spec.columns rows m).map some) = .ok (Spec.columns (rows.mapIdx g) w)

/-- The same for a policy with one output. -/
def Spec.Drawing1 (f : List (Option (List V)) → Except Err (List R)) (ok : List V → Prop) (g : Nat → List V → R) (n : Nat) : Prop :=
  ∀ m rows, rows.length = n → (∀ r ∈ rows, r.length = m) → (∀ r ∈ rows, ok r) → f ((Spec.columns rows m).map some) = .ok (rows.mapIdx g)

/-! ## Lemmas -/

theorem isActive_iff (o : Obs V M) : isActive o = true ↔ Spec.goesOn o := by
  unfold isActive Spec.goesOn
  cases o.state <;> simp

theorem ofPairs_nodup {κ α : Type} [DecidableEq κ] (l : List (κ × α)) (h : (l.map Prod.fst).Nodup) : Dict.ofPairs l = l := by
  have key : ∀ (l : List (κ × α)) (d : Dict κ α), ((d ++ l).map Prod.fst).Nodup → Dict.update d l = d ++ l := by
    intro l
    induction l with
    | nil => intro d _; simp [Dict.update]
    | cons p l ih =>
      intro d hd
      have hp : p.1 ∉ Dict.keys d := by
        simp only [List.map_append, List.map_cons] at hd
        exact fun hm => (List.nodup_append.mp hd).2.2 p.1 hm p.1 (by simp) rfl
      have : Dict.update d (p :: l) = Dict.update (Dict.set d p.1 p.2) l := rfl
      rw [this, Dict.set_of_not_mem hp, ih _ (by simpa using hd)]
      simp
  simpa [Dict.ofPairs] using key l [] (by simpa using h)

theorem gather_eq (observations : Dict Int (Obs V M)) (hn : (Dict.keys observations).Nodup) (k : String)
    (l : List (Int × Obs V M)) (hl : ∀ p ∈ l, p ∈ observations) (hk : ∀ p ∈ l, k ∈ Dict.keys p.2.arrays) :
    gather observations k (l.map Prod.fst) = .ok (l.filterMap fun p => Dict.get? p.2.arrays k) := by
  induction l with
  | nil => rfl
  | cons p l ih =>
    have h1 : Dict.get? observations p.1 = some p.2 := Dict.get?_of_mem hn (hl p (by simp))
    obtain ⟨v, hv⟩ := Dict.get?_isSome_of_mem (hk p (by simp))
    simp only [List.map_cons, gather, h1, hv, ih (fun q hq => hl q (by simp [hq])) (fun q hq => hk q (by simp [hq])),
      List.filterMap_cons]

theorem inputs_eq (observations : Dict Int (Obs V M)) (act : List Int) (col : String → List V) (pre ks : List String)
    (hn : (pre ++ ks).Nodup) (hg : ∀ k ∈ ks, gather observations k act = .ok (col k)) :
    inputs observations act (pre ++ ks) ks (pre.map (fun k => some (col k)) ++ List.replicate ks.length none) =
      .ok ((pre ++ ks).map fun k => some (col k)) := by
  induction ks generalizing pre with
  | nil => simp [inputs]
  | cons k ks ih =>
    have hk : k ∉ pre := fun hm => (List.nodup_append.mp hn).2.2 k hm k (by simp) rfl
    have hi : (pre ++ k :: ks).idxOf k = pre.length := by
      rw [List.idxOf_append, if_neg hk]; simp
    simp only [inputs, hg k (by simp), hi, List.length_cons, List.replicate_succ]
    have := ih (pre ++ [k]) (by simpa using hn) (fun k' hk' => hg k' (by simp [hk']))
    simp only [List.append_assoc, List.singleton_append] at this
    rw [← this]
    congr 1
    rw [List.set_append_right _ _ (by simp)]
    simp

theorem getElem?_filterMap {α β : Type} (f : α → Option β) (l : List α) (h : ∀ x ∈ l, (f x).isSome) (j : Nat) :
    (l.filterMap f)[j]? = l[j]?.bind f := by
  induction l generalizing j with
  | nil => simp
  | cons x l ih =>
    obtain ⟨y, hy⟩ := Option.isSome_iff_exists.mp (h x (by simp))
    cases j with
    | zero => simp [hy]
    | succ j => simp [hy, ih (fun x hx => h x (by simp [hx])) j]

theorem length_filterMap {α β : Type} (f : α → Option β) (l : List α) (h : ∀ x ∈ l, (f x).isSome) :
    (l.filterMap f).length = l.length := by
  induction l with
  | nil => rfl
  | cons x l ih =>
    obtain ⟨y, hy⟩ := Option.isSome_iff_exists.mp (h x (by simp))
    simp [hy, ih (fun x hx => h x (by simp [hx]))]

theorem filterMap_congr' {α β : Type} {f g : α → Option β} {l : List α} (h : ∀ x ∈ l, f x = g x) :
    l.filterMap f = l.filterMap g := by
  induction l with
  | nil => rfl
  | cons x l ih => simp [List.filterMap_cons, h x (by simp), ih fun x hx => h x (by simp [hx])]

theorem zip_take {α β : Type} (l : List α) (m : List β) : l.zip (m.take l.length) = l.zip m := by
  induction l generalizing m with
  | nil => rfl
  | cons x l ih => cases m <;> simp [ih]

/-- the inputs of one agent -/
def row (keys : List String) (o : Obs V M) : List V := keys.filterMap (Dict.get? o.arrays)

theorem columns_rows (keys : List String) (l : List (Int × Obs V M))
    (hk : ∀ p ∈ l, ∀ k ∈ keys, k ∈ Dict.keys p.2.arrays) :
    Spec.columns (l.map fun p => row keys p.2) keys.length = keys.map fun k => l.filterMap fun p => Dict.get? p.2.arrays k := by
  apply List.ext_getElem?
  intro j
  simp only [Spec.columns, List.getElem?_map]
  by_cases hj : j < keys.length
  · rw [List.getElem?_range hj, List.getElem?_eq_getElem hj]
    simp only [Option.map_some, Option.some.injEq, List.filterMap_map]
    apply filterMap_congr'
    intro p hp
    simp only [Function.comp_apply, row]
    rw [getElem?_filterMap _ _ (fun k hk' => by
      obtain ⟨v, hv⟩ := Dict.get?_isSome_of_mem (hk p hp k hk'); simp [hv]), List.getElem?_eq_getElem hj]
    rfl
  · rw [List.getElem?_eq_none (by simpa using hj), List.getElem?_eq_none (by simpa using hj)]
    rfl

theorem pick_eq (outs : List (List R)) (i : Nat) (ks : List String) (h : i + ks.length ≤ outs.length) :
    pick outs i ks = .ok (ks.zip (outs.drop i)) := by
  induction ks generalizing i with
  | nil => simp [pick]
  | cons k ks ih =>
    simp only [List.length_cons] at h
    have hi : i < outs.length := by omega
    simp only [pick, List.getElem?_eq_getElem hi, ih (i + 1) (by omega)]
    rw [List.drop_eq_getElem_cons hi]
    rfl

theorem fill_eq (i : Nat) (outs : List (String × List R)) (d : Dict String R) (vals : List R)
    (hv : vals.map some = outs.map fun p => p.2[i]?) (hn : (Dict.keys d ++ outs.map Prod.fst).Nodup) :
    fill i outs d = .ok (d ++ (outs.map Prod.fst).zip vals) := by
  induction outs generalizing d vals with
  | nil =>
    cases vals with
    | nil => simp [fill]
    | cons v vals => simp at hv
  | cons p outs ih =>
    cases vals with
    | nil => simp at hv
    | cons v vals =>
      simp only [List.map_cons, List.cons.injEq] at hv
      obtain ⟨k, data⟩ := p
      have hk : k ∉ Dict.keys d := fun hm => (List.nodup_append.mp hn).2.2 k hm k (by simp) rfl
      simp only [fill, ← hv.1]
      rw [Dict.set_of_not_mem hk, ih _ vals hv.2 (by simpa using hn)]
      simp

theorem respond_eq (outs : List (String × List R)) (resp : List (Int × Response R)) (i : Nat)
    (h : ∀ j a r, resp[j]? = some (a, r) → fill (i + j) outs [] = .ok r.listData ∧ r.scalarData = []) :
    respond outs i (resp.map Prod.fst) = .ok resp := by
  induction resp generalizing i with
  | nil => rfl
  | cons p resp ih =>
    obtain ⟨a, r⟩ := p
    obtain ⟨h1, h2⟩ := h 0 a r rfl
    simp only [Nat.add_zero] at h1
    simp only [List.map_cons, respond, h1]
    rw [ih (i + 1) (fun j a r hj => by
      have := h (j + 1) a r (by simpa using hj)
      rwa [Nat.add_assoc, Nat.add_comm 1 j])]
    rw [← h2]

theorem map_mapIdx' {α β γ : Type} (f : Nat → α → β) (g : β → γ) (l : List α) :
    (l.mapIdx f).map g = l.mapIdx fun i x => g (f i x) := by
  apply List.ext_getElem?; intro i; simp [Function.comp_def]

theorem mapIdx_const {α β : Type} (f : α → β) (l : List α) : l.mapIdx (fun _ x => f x) = l.map f := by
  apply List.ext_getElem? ; intro i; simp

/-- Both kinds of policies at once: the outputs are batches that the rows give. -/
theorem call_eq (ag : Agent V R) (observations : Dict Int (Obs V M)) (hn : (Dict.keys observations).Nodup)
    (hne : observations ≠ []) (hin : ag.inputKeys.Nodup) (hout : ag.outputKeys.Nodup)
    (hk : ∀ p ∈ observations, Spec.goesOn p.2 → ∀ k ∈ ag.inputKeys, k ∈ Dict.keys p.2.arrays)
    (outs : List (List R)) (g : Nat → List V → List R) (hl : outs.length = ag.outputKeys.length)
    (hg : ∀ i, ∀ p ∈ observations, (g i (row ag.inputKeys p.2)).length = ag.outputKeys.length)
    (hp : ag.outputs ((Spec.columns ((observations.filter fun p => isActive p.2).map fun p => row ag.inputKeys p.2)
      ag.inputKeys.length).map some) = .ok (ag.outputKeys.zip outs))
    (hrow : ∀ (j : Nat) (o : List R), outs[j]? = some o → ∀ (i : Nat) (p : Int × Obs V M), (observations.filter fun p => isActive p.2)[i]? = some p →
      o[i]? = (g i (row ag.inputKeys p.2))[j]?) :
    ag.call observations = .ok ((observations.filter fun p => isActive p.2).mapIdx fun i p =>
      (p.1, ⟨ag.outputKeys.zip (g i (row ag.inputKeys p.2)), []⟩)) := by
  have hlen : observations.length ≠ 0 := fun h => hne (List.eq_nil_of_length_eq_zero h)
  have hkl : ∀ p ∈ observations.filter (fun p => isActive p.2), ∀ k ∈ ag.inputKeys, k ∈ Dict.keys p.2.arrays :=
    fun p hp k hk' => hk p (List.mem_filter.mp hp).1 ((isActive_iff _).mp (by simpa using (List.mem_filter.mp hp).2)) k hk'
  have hsub : ∀ p ∈ observations.filter (fun p => isActive p.2), p ∈ observations := fun p hp => (List.mem_filter.mp hp).1
  have hnact : ((observations.filter fun p => isActive p.2).map Prod.fst).Nodup :=
    hn.sublist ((List.filter_sublist).map _)
  have hins : inputs observations (active observations) ag.inputKeys ag.inputKeys (List.replicate ag.inputKeys.length none) =
      .ok ((Spec.columns ((observations.filter fun p => isActive p.2).map fun p => row ag.inputKeys p.2)
        ag.inputKeys.length).map some) := by
    have := inputs_eq observations (active observations)
      (fun k => (observations.filter fun p : Int × Obs V M => isActive p.2).filterMap fun p : Int × Obs V M => Dict.get? p.2.arrays k) [] ag.inputKeys hin
      (fun k hk' => gather_eq observations hn k _ hsub fun p hp => hkl p hp k hk')
    rw [columns_rows _ _ hkl]
    simpa [Function.comp_def] using this
  have hzip : (ag.outputKeys.zip outs).map Prod.fst = ag.outputKeys := List.map_fst_zip (by omega)
  have hresp := respond_eq (ag.outputKeys.zip outs) ((observations.filter fun p => isActive p.2).mapIdx fun i p =>
      (p.1, ⟨ag.outputKeys.zip (g i (row ag.inputKeys p.2)), []⟩)) 0 (by
    intro j a r hj
    rw [List.getElem?_mapIdx] at hj
    obtain ⟨p, hp1, hp2⟩ := Option.map_eq_some_iff.mp hj
    cases hp2
    refine ⟨?_, rfl⟩
    have := fill_eq (0 + j) (ag.outputKeys.zip outs) [] (g j (row ag.inputKeys p.2)) (by
      apply List.ext_getElem?
      intro c
      rw [List.getElem?_map, List.getElem?_map, Nat.zero_add]
      by_cases hc : c < ag.outputKeys.length
      · have hco : c < outs.length := by omega
        have hcz : c < (ag.outputKeys.zip outs).length := by simp; omega
        have h := hrow c outs[c] (List.getElem?_eq_getElem hco) j p hp1
        rw [List.getElem?_eq_getElem hcz, List.getElem_zip]
        simp only [Option.map_some]
        rw [h, List.getElem?_eq_getElem (by rw [hg j p (hsub p (List.mem_of_getElem? hp1))]; exact hc)]
        rfl
      · rw [List.getElem?_eq_none (by rw [hg j p (hsub p (List.mem_of_getElem? hp1))]; omega), List.getElem?_eq_none (by simp; omega)]
        rfl) (by simpa [hzip] using hout)
    simpa [hzip] using this)
  have hkeys : ((observations.filter fun p => isActive p.2).mapIdx fun i p =>
      ((p.1, ⟨ag.outputKeys.zip (g i (row ag.inputKeys p.2)), []⟩) : Int × Response R)).map Prod.fst = active observations := by
    rw [map_mapIdx']; exact mapIdx_const _ _
  rw [hkeys] at hresp
  simp only [Agent.call, if_neg hlen, hins, hp, hresp]
  rw [ofPairs_nodup _ (by rw [hkeys]; exact hnact)]

/-! ## C68 -/

theorem mem_row {keys : List String} {o : Obs V M} (hk : ∀ k ∈ keys, k ∈ Dict.keys o.arrays) :
    (row keys o).map some = keys.map (Dict.get? o.arrays) := by
  induction keys with
  | nil => rfl
  | cons k ks ih =>
    obtain ⟨v, hv⟩ := Dict.get?_isSome_of_mem (hk k (by simp))
    simp [row, hv]
    exact ih fun k hk' => hk k (by simp [hk'])

theorem mem_active (observations : Dict Int (Obs V M)) :
    active observations = Dict.keys (observations.filter fun p => isActive p.2) := rfl

theorem noLogprobs_eq (l : List R) : l.take 1 ++ l.drop 2 = Spec.noLogprobs l := by
  match l with
  | [] => rfl
  | [_] => rfl
  | _ :: _ :: _ => simp [Spec.noLogprobs]

theorem noLogprobs_length (l : List R) : l.length ≤ (Spec.noLogprobs l).length + 1 := by
  match l with
  | [] => simp
  | [_] => simp [Spec.noLogprobs]
  | _ :: _ :: _ => simp [Spec.noLogprobs]

theorem noLogprobs_getElem? (l : List R) (j : Nat) : (Spec.noLogprobs l)[j]? = l[if j = 0 then 0 else j + 1]? := by
  match l, j with
  | [], j => simp [Spec.noLogprobs]
  | [_], 0 => rfl
  | [_], j + 1 => simp [Spec.noLogprobs]
  | _ :: _ :: _, 0 => rfl
  | _ :: _ :: _, j + 1 => simp [Spec.noLogprobs]

theorem columns_getElem? (rows : List (List R)) (w : Nat) (hw : ∀ r ∈ rows, r.length = w) (j : Nat) (o : List R)
    (hj : (Spec.columns rows w)[j]? = some o) (i : Nat) (r : List R) (hr : rows[i]? = some r) : o[i]? = r[j]? := by
  simp only [Spec.columns, List.getElem?_map] at hj
  obtain ⟨j', h1, rfl⟩ := Option.map_eq_some_iff.mp hj
  have hjw : j < w := by
    have := (List.getElem?_eq_some_iff.mp h1).1
    simpa using this
  rw [List.getElem?_range hjw] at h1
  cases h1
  rw [getElem?_filterMap _ _ (fun r hr => by rw [List.getElem?_eq_getElem (by rw [hw r hr]; exact hjw)]; rfl), hr]
  rfl

/-- From the result for all agents to what is said about each. -/
theorem result_of (observations : Dict Int (Obs V M)) (hn : (Dict.keys observations).Nodup) (resp : Nat → Obs V M → Response R) :
    (Dict.keys ((observations.filter fun p => isActive p.2).mapIdx fun i p => (p.1, resp i p.2))).Sublist (Dict.keys observations) ∧
    ∀ a o, Dict.get? observations a = some o →
      (¬ Spec.goesOn o → a ∉ Dict.keys ((observations.filter fun p => isActive p.2).mapIdx fun i p => (p.1, resp i p.2))) ∧
      (Spec.goesOn o → ∃ i, (active observations)[i]? = some a ∧
        Dict.get? ((observations.filter fun p => isActive p.2).mapIdx fun i p => (p.1, resp i p.2)) a = some (resp i o)) := by
  have hkeys : Dict.keys ((observations.filter fun p => isActive p.2).mapIdx fun i p => (p.1, resp i p.2)) =
      (observations.filter fun p => isActive p.2).map Prod.fst := by
    unfold Dict.keys; rw [map_mapIdx']; exact mapIdx_const _ _
  have hsub : ((observations.filter fun p => isActive p.2).map Prod.fst).Sublist (Dict.keys observations) :=
    (List.filter_sublist).map _
  rw [hkeys]
  refine ⟨hsub, fun a o ha => ⟨fun hno hm => ?_, fun hgo => ?_⟩⟩
  · obtain ⟨p, hp, rfl⟩ := List.mem_map.mp hm
    obtain ⟨h1, h2⟩ := List.mem_filter.mp hp
    rw [Dict.get?_of_mem hn h1] at ha
    cases ha
    exact hno ((isActive_iff _).mp (by simpa using h2))
  · have hm : (a, o) ∈ observations.filter fun p => isActive p.2 :=
      List.mem_filter.mpr ⟨Dict.mem_of_get? ha, by simpa using (isActive_iff _).mpr hgo⟩
    obtain ⟨i, hi⟩ := List.mem_iff_getElem?.mp hm
    refine ⟨i, by simp [active, Dict.keys, hi], ?_⟩
    apply Dict.get?_of_mem (by rw [hkeys]; exact hn.sublist hsub)
    exact List.mem_of_getElem? (i := i) (by rw [List.getElem?_mapIdx, hi]; rfl)

/-- C68: a policy with log probabilities that draws random numbers. The agents that go on are answered, in their order, and
each gets the outputs of the policy for its own inputs and for the numbers drawn for its place in the batch, under the output
keys. -/
theorem C68_drawing (ag : Agent V R) (f : List (Option (List V)) → Except Err (List (List R))) (hf : ag.policy = .logprobs f)
    (observations : Dict Int (Obs V M)) (hn : (Dict.keys observations).Nodup)
    (hne : observations ≠ []) (hin : ag.inputKeys.Nodup) (hout : ag.outputKeys.Nodup)
    (hk : ∀ a o, Dict.get? observations a = some o → Spec.goesOn o → ∀ k ∈ ag.inputKeys, k ∈ Dict.keys o.arrays)
    (ok : List V → Prop) (hok : ∀ a o, Dict.get? observations a = some o → Spec.goesOn o → ∀ own : List V,
      own.map some = ag.inputKeys.map (Dict.get? o.arrays) → ok own)
    (g : Nat → List V → List R) (w : Nat) (hg : Spec.Drawing f ok g (active observations).length w) (hw : ag.outputKeys.length < w) :
    ∃ r, ag.call observations = .ok r ∧ (Dict.keys r).Sublist (Dict.keys observations) ∧
      ∀ a o, Dict.get? observations a = some o →
        (¬ Spec.goesOn o → a ∉ Dict.keys r) ∧
        (Spec.goesOn o → ∃ i own, (active observations)[i]? = some a ∧ own.map some = ag.inputKeys.map (Dict.get? o.arrays) ∧
          Dict.get? r a = some ⟨ag.outputKeys.zip (Spec.noLogprobs (g i own)), []⟩) := by
  have hk' : ∀ p ∈ observations, Spec.goesOn p.2 → ∀ k ∈ ag.inputKeys, k ∈ Dict.keys p.2.arrays :=
    fun p hp => hk p.1 p.2 (Dict.get?_of_mem hn hp)
  have hlen : ∀ p ∈ (observations.filter fun p => isActive p.2).map fun p => row ag.inputKeys p.2, p.length = ag.inputKeys.length := by
    intro r hr
    obtain ⟨p, hp, rfl⟩ := List.mem_map.mp hr
    obtain ⟨h1, h2⟩ := List.mem_filter.mp hp
    exact length_filterMap _ _ fun k hk'' => by
      obtain ⟨v, hv⟩ := Dict.get?_isSome_of_mem (hk' p h1 ((isActive_iff _).mp (by simpa using h2)) k hk'')
      simp [hv]
  have hall : ∀ r ∈ (observations.filter fun p => isActive p.2).map fun p => row ag.inputKeys p.2, ok r := by
    intro r hr
    obtain ⟨p, hp, rfl⟩ := List.mem_map.mp hr
    obtain ⟨h1, h2⟩ := List.mem_filter.mp hp
    have h3 := (isActive_iff p.2).mp (by simpa using h2)
    exact hok p.1 p.2 (Dict.get?_of_mem hn h1) h3 _ (mem_row (hk' p h1 h3))
  have hfr := hg.2 ag.inputKeys.length _ (by simp [active, Dict.keys]) hlen hall
  have hcl : (Spec.columns (((observations.filter fun p => isActive p.2).map fun p => row ag.inputKeys p.2).mapIdx g) w).length = w := by
    simp [Spec.columns]
  have hcall := call_eq ag observations hn hne hin hout hk'
    ((Spec.noLogprobs (Spec.columns (((observations.filter fun p => isActive p.2).map fun p => row ag.inputKeys p.2).mapIdx g) w)).take
      ag.outputKeys.length)
    (fun i r => (Spec.noLogprobs (g i r)).take ag.outputKeys.length)
    (by
      have := noLogprobs_length (Spec.columns (((observations.filter fun p => isActive p.2).map fun p => row ag.inputKeys p.2).mapIdx g) w)
      rw [hcl] at this
      rw [List.length_take]; omega)
    (fun i p _ => by
      have := noLogprobs_length (g i (row ag.inputKeys p.2))
      rw [hg.1] at this
      rw [List.length_take]; omega)
    (by
      simp only [Agent.outputs, hf, hfr, noLogprobs_eq]
      rw [pick_eq]
      · simp only [List.drop_zero]
        rw [ofPairs_nodup, zip_take]
        rw [← zip_take, List.map_fst_zip]
        · exact hout
        · have := noLogprobs_length (Spec.columns (((observations.filter fun p => isActive p.2).map fun p => row ag.inputKeys p.2).mapIdx g) w)
          rw [hcl] at this
          rw [List.length_take]; omega
      · have := noLogprobs_length (Spec.columns (((observations.filter fun p => isActive p.2).map fun p => row ag.inputKeys p.2).mapIdx g) w)
        rw [hcl] at this
        omega)
    (by
      intro j o hj i p hp
      have hjl : j < ag.outputKeys.length := by
        have := (List.getElem?_eq_some_iff.mp hj).1
        rw [List.length_take] at this; omega
      rw [List.getElem?_take_of_lt hjl, noLogprobs_getElem?] at hj
      rw [List.getElem?_take_of_lt hjl, noLogprobs_getElem?]
      exact columns_getElem? _ w (fun r hr => by
        obtain ⟨_, _, rfl⟩ := List.mem_mapIdx.mp hr
        exact hg.1 _ _) _ _ hj i _ (by simp [hp]))
  obtain ⟨h1, h2⟩ := result_of observations hn fun i o =>
    (⟨ag.outputKeys.zip ((Spec.noLogprobs (g i (row ag.inputKeys o))).take ag.outputKeys.length), []⟩ : Response R)
  refine ⟨_, hcall, h1, fun a o ha => ⟨(h2 a o ha).1, fun hgo => ?_⟩⟩
  obtain ⟨i, hi, h3⟩ := (h2 a o ha).2 hgo
  exact ⟨i, row ag.inputKeys o, hi, mem_row (hk a o ha hgo), by rw [h3, zip_take]⟩

/-- C68: a policy with log probabilities. The agents that go on are answered, in their order, and each gets the outputs of
the policy for its own inputs, under the output keys. -/
theorem C68 (ag : Agent V R) (f : List (Option (List V)) → Except Err (List (List R))) (hf : ag.policy = .logprobs f)
    (observations : Dict Int (Obs V M)) (hn : (Dict.keys observations).Nodup)
    (hne : observations ≠ []) (hin : ag.inputKeys.Nodup) (hout : ag.outputKeys.Nodup)
    (hk : ∀ a o, Dict.get? observations a = some o → Spec.goesOn o → ∀ k ∈ ag.inputKeys, k ∈ Dict.keys o.arrays)
    (g : List V → List R) (w : Nat) (hg : Spec.RowWise f g (active observations).length w) (hw : ag.outputKeys.length < w) :
    ∃ r, ag.call observations = .ok r ∧ (Dict.keys r).Sublist (Dict.keys observations) ∧
      ∀ a o, Dict.get? observations a = some o →
        (¬ Spec.goesOn o → a ∉ Dict.keys r) ∧
        (Spec.goesOn o → ∃ own, own.map some = ag.inputKeys.map (Dict.get? o.arrays) ∧
          Dict.get? r a = some ⟨ag.outputKeys.zip (Spec.noLogprobs (g own)), []⟩) := by
  obtain ⟨r, h1, h2, h3⟩ := C68_drawing ag f hf observations hn hne hin hout hk (fun _ => True) (fun _ _ _ _ _ _ => trivial) (fun _ => g) w
    ⟨fun _ => hg.1, fun m rows a b _ => by rw [hg.2 m rows a b, mapIdx_const]⟩ hw
  refine ⟨r, h1, h2, fun a o ha => ⟨(h3 a o ha).1, fun hgo => ?_⟩⟩
  obtain ⟨-, own, -, h4, h5⟩ := (h3 a o ha).2 hgo
  exact ⟨own, h4, h5⟩

/-- C68 for a policy with one output, which goes under all output keys, that draws random numbers. -/
theorem C68_plain_drawing (ag : Agent V R) (f : List (Option (List V)) → Except Err (List R)) (hf : ag.policy = .plain f)
    (observations : Dict Int (Obs V M)) (hn : (Dict.keys observations).Nodup)
    (hne : observations ≠ []) (hin : ag.inputKeys.Nodup) (hout : ag.outputKeys.Nodup)
    (hk : ∀ a o, Dict.get? observations a = some o → Spec.goesOn o → ∀ k ∈ ag.inputKeys, k ∈ Dict.keys o.arrays)
    (ok : List V → Prop) (hok : ∀ a o, Dict.get? observations a = some o → Spec.goesOn o → ∀ own : List V,
      own.map some = ag.inputKeys.map (Dict.get? o.arrays) → ok own)
    (g : Nat → List V → R) (hg : Spec.Drawing1 f ok g (active observations).length) :
    ∃ r, ag.call observations = .ok r ∧ (Dict.keys r).Sublist (Dict.keys observations) ∧
      ∀ a o, Dict.get? observations a = some o →
        (¬ Spec.goesOn o → a ∉ Dict.keys r) ∧
        (Spec.goesOn o → ∃ i own, (active observations)[i]? = some a ∧ own.map some = ag.inputKeys.map (Dict.get? o.arrays) ∧
          Dict.get? r a = some ⟨ag.outputKeys.map fun k => (k, g i own), []⟩) := by
  have hk' : ∀ p ∈ observations, Spec.goesOn p.2 → ∀ k ∈ ag.inputKeys, k ∈ Dict.keys p.2.arrays :=
    fun p hp => hk p.1 p.2 (Dict.get?_of_mem hn hp)
  have hlen : ∀ p ∈ (observations.filter fun p => isActive p.2).map fun p => row ag.inputKeys p.2, p.length = ag.inputKeys.length := by
    intro r hr
    obtain ⟨p, hp, rfl⟩ := List.mem_map.mp hr
    obtain ⟨h1, h2⟩ := List.mem_filter.mp hp
    exact length_filterMap _ _ fun k hk'' => by
      obtain ⟨v, hv⟩ := Dict.get?_isSome_of_mem (hk' p h1 ((isActive_iff _).mp (by simpa using h2)) k hk'')
      simp [hv]
  have hall : ∀ r ∈ (observations.filter fun p => isActive p.2).map fun p => row ag.inputKeys p.2, ok r := by
    intro r hr
    obtain ⟨p, hp, rfl⟩ := List.mem_map.mp hr
    obtain ⟨h1, h2⟩ := List.mem_filter.mp hp
    have h3 := (isActive_iff p.2).mp (by simpa using h2)
    exact hok p.1 p.2 (Dict.get?_of_mem hn h1) h3 _ (mem_row (hk' p h1 h3))
  have hfr := hg ag.inputKeys.length _ (by simp [active, Dict.keys]) hlen hall
  have hz : ∀ {β : Type} (x : β), ag.outputKeys.zip (List.replicate ag.outputKeys.length x) = ag.outputKeys.map fun k => (k, x) := by
    intro β x
    induction ag.outputKeys with
    | nil => rfl
    | cons k ks ih => simp [List.replicate_succ, ih]
  have hcall := call_eq ag observations hn hne hin hout hk'
    (List.replicate ag.outputKeys.length (((observations.filter fun p => isActive p.2).map fun p => row ag.inputKeys p.2).mapIdx g))
    (fun i r => List.replicate ag.outputKeys.length (g i r)) (by simp) (fun i p _ => by simp)
    (by
      simp only [Agent.outputs, hf, hfr, hz]
      rw [ofPairs_nodup _ (by rw [List.map_map]; simpa [Function.comp_def] using hout)])
    (by
      intro j o hj i p hp
      obtain ⟨hjl, rfl⟩ := List.getElem?_eq_some_iff.mp hj
      simp only [List.length_replicate] at hjl
      simp [hp, hjl])
  obtain ⟨h1, h2⟩ := result_of observations hn fun i o =>
    (⟨ag.outputKeys.zip (List.replicate ag.outputKeys.length (g i (row ag.inputKeys o))), []⟩ : Response R)
  refine ⟨_, hcall, h1, fun a o ha => ⟨(h2 a o ha).1, fun hgo => ?_⟩⟩
  obtain ⟨i, hi, h3⟩ := (h2 a o ha).2 hgo
  exact ⟨i, row ag.inputKeys o, hi, mem_row (hk a o ha hgo), by rw [h3, hz]⟩

/-- C68 for a policy with one output, which goes under all output keys. -/
theorem C68_plain (ag : Agent V R) (f : List (Option (List V)) → Except Err (List R)) (hf : ag.policy = .plain f)
    (observations : Dict Int (Obs V M)) (hn : (Dict.keys observations).Nodup)
    (hne : observations ≠ []) (hin : ag.inputKeys.Nodup) (hout : ag.outputKeys.Nodup)
    (hk : ∀ a o, Dict.get? observations a = some o → Spec.goesOn o → ∀ k ∈ ag.inputKeys, k ∈ Dict.keys o.arrays)
    (g : List V → R) (hg : Spec.RowWise1 f g (active observations).length) :
    ∃ r, ag.call observations = .ok r ∧ (Dict.keys r).Sublist (Dict.keys observations) ∧
      ∀ a o, Dict.get? observations a = some o →
        (¬ Spec.goesOn o → a ∉ Dict.keys r) ∧
        (Spec.goesOn o → ∃ own, own.map some = ag.inputKeys.map (Dict.get? o.arrays) ∧
          Dict.get? r a = some ⟨ag.outputKeys.map fun k => (k, g own), []⟩) := by
  obtain ⟨r, h1, h2, h3⟩ := C68_plain_drawing ag f hf observations hn hne hin hout hk (fun _ => True) (fun _ _ _ _ _ _ => trivial) (fun _ => g)
    (fun m rows a b _ => by rw [hg m rows a b, mapIdx_const])
  refine ⟨r, h1, h2, fun a o ha => ⟨(h3 a o ha).1, fun hgo => ?_⟩⟩
  obtain ⟨-, own, -, h4, h5⟩ := (h3 a o ha).2 hgo
  exact ⟨own, h4, h5⟩

/-- C68: whatever the policy does, no answer goes to an agent that has ended or is not there, and every other agent has one; a call
without observations is never answered. -/
theorem C68_only (ag : Agent V R) (observations : Dict Int (Obs V M)) (hn : (Dict.keys observations).Nodup)
    (r : Dict Int (Response R)) (hr : ag.call observations = .ok r) :
    observations ≠ [] ∧ ∀ a, a ∈ Dict.keys r ↔ ∃ o, Dict.get? observations a = some o ∧ Spec.goesOn o := by
  refine ⟨fun h => ?_, fun a => ?_⟩
  · subst h
    simp [Agent.call] at hr
  have hresp : ∀ (outs : Dict String (List R)) (as : List Int) (i : Nat) l, respond outs i as = .ok l → l.map Prod.fst = as := by
    intro outs as
    induction as with
    | nil => intro i l h; simp only [respond, Except.ok.injEq] at h; rw [← h]; rfl
    | cons a as ih =>
      intro i l h
      simp only [respond] at h
      repeat' split at h
      all_goals simp only [reduceCtorEq, Except.ok.injEq] at h
      rw [← h, List.map_cons]
      rw [ih _ _ ‹_›]
  have hkeys : Dict.keys r = active observations := by
    unfold Agent.call at hr
    repeat' split at hr
    all_goals simp only [reduceCtorEq, Except.ok.injEq] at hr
    have h := hresp _ _ _ _ ‹_›
    rw [← hr, ofPairs_nodup _ (by rw [h]; exact hn.sublist ((List.filter_sublist).map _))]
    exact h
  rw [hkeys]
  constructor
  · intro h
    obtain ⟨p, hp, rfl⟩ := List.mem_map.mp h
    obtain ⟨h1, h2⟩ := List.mem_filter.mp hp
    exact ⟨p.2, Dict.get?_of_mem hn h1, (isActive_iff _).mp (by simpa using h2)⟩
  · rintro ⟨o, h1, h2⟩
    exact List.mem_map.mpr ⟨(a, o), List.mem_filter.mpr ⟨Dict.mem_of_get? h1, by simpa using (isActive_iff _).mpr h2⟩, rfl⟩

/-! ## A concrete case -/

/-- adds the two inputs of each row; second output: log probabilities 0; third output: the first input -/
def addRows : List (Option (List Nat)) → Except Err (List (List Nat))
  | [some xs, some ys] => .ok [List.zipWith (· + ·) xs ys, xs.map fun _ => 0, xs]
  | _ => .error .typeError

def twoAgents : Dict Int (Obs Nat Unit) :=
  [(4, ⟨[], .initial, [("goal", 10), ("obs", 1)], none⟩), (5, ⟨[], .terminal, [], none⟩),
   (2, ⟨[], .running, [("obs", 2), ("goal", 20)], none⟩)]

example : (⟨["obs", "goal"], ["actions", "extra"], .logprobs addRows⟩ : Agent Nat Nat).call twoAgents =
    .ok [(4, ⟨[("actions", 11), ("extra", 1)], []⟩), (2, ⟨[("actions", 22), ("extra", 2)], []⟩)] := by decide +kernel

/-- An input key given twice: the policy gets `None` for the second one. -/
example : (⟨["obs", "obs"], ["actions"], .logprobs addRows⟩ : Agent Nat Nat).call twoAgents = .error .typeError := by
  decide +kernel

/-! ## C125 -/

/-- The property as one would like to have it: a wrapper of an agent proxy can take its place. -/
def C125_claim : Prop :=
  ∀ (ag : Agent Nat Nat) (observations : Dict Int (Obs Nat Unit)), (ag.face (M := Unit)).wrap.call observations = ag.face.call observations

/-- **C125** fails: the wrapped proxy answers `None`. -/
theorem C125_false : ¬ C125_claim := by
  intro h
  have := h ⟨["obs", "goal"], ["actions", "extra"], .logprobs addRows⟩ twoAgents
  revert this
  decide +kernel

/-- **C125**: whatever the proxy inside answers, the wrapper answers `None`. -/
theorem C125_none {α β : Type} (inner : Face α β) (observations : α) (r : Option β) (h : inner.call observations = .ok r) :
    inner.wrap.call observations = .ok none := by
  simp only [Face.wrap, wrapperCall, h]

/-- **C125** (partial): names and failures are those of the proxy inside. The answer is missing. -/
theorem C125_partial {α β : Type} (inner : Face α β) :
    inner.wrap.inputNames = inner.inputNames ∧ inner.wrap.outputNames = inner.outputNames ∧
      ∀ observations e, inner.wrap.call observations = .error e ↔ inner.call observations = .error e := by
  refine ⟨rfl, rfl, fun o e => ?_⟩
  simp only [Face.wrap, wrapperCall]
  cases inner.call o <;> simp

/-- **C125** (partial), for the proxy of this library: the wrapper fails exactly when the agent itself fails, in the same way, and otherwise
the answer that it drops is the agent's. -/
theorem C125_agent_partial (ag : Agent V R) (observations : Dict Int (Obs V M)) :
    (∀ e, ag.face.wrap.call observations = .error e ↔ ag.call observations = .error e) ∧
    (∀ r, ag.face.call observations = .ok r ↔ ∃ x, r = some x ∧ ag.call observations = .ok x) := by
  constructor
  · intro e
    rw [(C125_partial (ag.face (M := M))).2.2]
    simp only [Agent.face]
    cases ag.call observations <;> simp
  · intro r
    simp only [Agent.face]
    cases ag.call observations <;> simp [eq_comm]

example : (Agent.face (M := Unit) ⟨["obs", "goal"], ["actions", "extra"], .logprobs addRows⟩).wrap.call [] = .error .assertionError := by
  decide +kernel

end Agent

end Verif
