import Verif.Spec.Proxy
import Verif.Lemmas.Dict
import Mathlib.Data.List.Forall2
import Mathlib.Tactic.Set

/-!
# Episode assembly: invariant
-/

namespace Verif

open Spec

variable {V : Type u} {M : Type v} {T : Type w}

theorem Dict.get?_update {κ : Type u} {α : Type v} [DecidableEq κ] (d e : Dict κ α) (h : e.keys.Nodup) (k : κ) :
    (d.update e).get? k = match e.get? k with
      | some v => some v
      | none => d.get? k := by
  induction e generalizing d with
  | nil => rfl
  | cons kv e ih =>
    obtain ⟨j, v⟩ := kv
    simp only [Dict.keys_cons, List.nodup_cons] at h
    have := ih (d.set j v) h.2
    rw [show Dict.update d ((j, v) :: e) = Dict.update (d.set j v) e from rfl, this]
    simp only [Dict.get?]
    by_cases hjk : j = k
    · subst hjk
      rw [if_pos rfl, Dict.get?_none_iff.2 h.1]
      simp
    · rw [if_neg hjk, Dict.get?_set_ne hjk]

theorem Dict.nodup_update {κ : Type u} {α : Type v} [DecidableEq κ] (d e : Dict κ α) (h : d.keys.Nodup) :
    (d.update e).keys.Nodup := by
  induction e generalizing d with
  | nil => exact h
  | cons kv e ih => exact ih _ (Dict.nodup_set h)

namespace Episode

theorem touch_push (ep : Episode V) (kv : String × V) (k : String) :
    ((ep.push kv).touch k).2 = (ep.touch k).2 ++ (if kv.1 = k then [kv.2] else []) := by
  unfold touch push
  by_cases h : kv.1 = k
  · subst h
    rw [Dict.get?_set_self, if_pos rfl]
    cases Dict.get? ep kv.1 <;> rfl
  · rw [Dict.get?_set_ne h, if_neg h]
    cases Dict.get? ep k <;> simp

theorem touch_append (ep : Episode V) (data : Dict String V) (h : data.keys.Nodup) (k : String) :
    ((ep.append data).touch k).2 = (ep.touch k).2 ++ (data.get? k).toList := by
  induction data generalizing ep with
  | nil => simp [append, Dict.get?]
  | cons kv data ih =>
    obtain ⟨j, v⟩ := kv
    simp only [Dict.keys_cons, List.nodup_cons] at h
    rw [show append ep ((j, v) :: data) = append (ep.push (j, v)) data from rfl, ih _ h.2, touch_push]
    simp only [Dict.get?]
    by_cases hjk : j = k
    · subst hjk
      rw [if_pos rfl, if_pos rfl, Dict.get?_none_iff.2 h.1]; simp
    · rw [if_neg hjk, if_neg hjk]; simp

theorem nodup_append (ep : Episode V) (data : Dict String V) (h : Dict.keys ep |>.Nodup) :
    (Dict.keys (ep.append data)).Nodup := by
  induction data generalizing ep with
  | nil => exact h
  | cons kv data ih => exact ih _ (Dict.nodup_set h)

theorem mem_keys_append (ep : Episode V) (data : Dict String V) (k : String) :
    k ∈ Dict.keys (ep.append data) ↔ k ∈ Dict.keys ep ∨ k ∈ data.keys := by
  induction data generalizing ep with
  | nil => simp [append]
  | cons kv data ih =>
    rw [show append ep (kv :: data) = append (ep.push kv) data from rfl, ih]
    unfold push
    rw [Dict.mem_keys_set]
    simp only [Dict.keys_cons, List.mem_cons]
    constructor
    · rintro ((h | h) | h)
      · exact Or.inr (Or.inl h)
      · exact Or.inl h
      · exact Or.inr (Or.inr h)
    · rintro (h | h | h)
      · exact Or.inl (Or.inr h)
      · exact Or.inl (Or.inl h)
      · exact Or.inr h

end Episode

namespace Spec

/-- The dicts of a call have distinct keys, as Python dicts do. -/
structure Call.WF (c : Call V M) : Prop where
  agents : c.observations.keys.Nodup
  arrays : ∀ a o, (a, o) ∈ c.observations → o.arrays.keys.Nodup
  resp : ∀ a r, (a, r) ∈ c.responses → r.listData.keys.Nodup ∧ r.scalarData.keys.Nodup

/-- The episode dict shows these steps. -/
structure Shows (cfg : ProxyCfg V) (ep : Episode V) (ss : List (Step V M)) : Prop where
  nodup : (Dict.keys ep).Nodup
  cols : ∀ k, (ep.touch k).2 = column cfg.useTerminal cfg.float k ss
  keys : ∀ k, k ∈ Dict.keys ep → k = cfg.lengthKey ∨ column cfg.useTerminal cfg.float k ss ≠ []

theorem ongoing_nil (a : Int) : ongoing a ([] : List (Step V M)) = [] := rfl

theorem ongoing_snoc_other {a : Int} (h : List (Step V M)) {s : Step V M} (hs : s.agent ≠ a) :
    ongoing a (h ++ [s]) = ongoing a h := by
  simp [ongoing, List.filter_append, hs]

theorem ongoing_snoc_ends {a : Int} (h : List (Step V M)) {s : Step V M} (hs : s.agent = a) (he : s.ends = true) :
    ongoing a (h ++ [s]) = [] := by
  simp [ongoing, List.filter_append, hs, he]

theorem ongoing_snoc {a : Int} (h : List (Step V M)) {s : Step V M} (hs : s.agent = a) (he : s.ends = false) :
    ongoing a (h ++ [s]) = ongoing a h ++ [s] := by
  simp [ongoing, List.filter_append, hs, he]

theorem column_append (ut : Bool) (fl : Bool → V) (k : String) (ss ss' : List (Step V M)) :
    column ut fl k (ss ++ ss') = column ut fl k ss ++ column ut fl k ss' := by
  simp [column, List.filterMap_append]

theorem delivered_append (cfg : ProxyCfg V) (past a b : List (Step V M)) :
    delivered cfg past (a ++ b) = delivered cfg past a ++ delivered cfg (past ++ a) b := by
  induction a generalizing past with
  | nil => simp [delivered]
  | cons s a ih => simp [delivered, ih, List.append_assoc]

end Spec

/-- What the proxy knows after the steps `h`. -/
structure ProxyInv (cfg : ProxyCfg V) (p : Proxy V T) (h : List (Step V M)) : Prop where
  nodup : p.store.keys.Nodup
  none : ∀ a, p.store.get? a = none → ongoing a h = []
  some : ∀ a ep, p.store.get? a = some ep → ongoing a h ≠ [] ∧ Shows cfg ep (ongoing a h)

/-- The dict that a step appends shows the step. -/
theorem shows_step {cfg : ProxyCfg V} {ep : Episode V} {ss : List (Step V M)} (hs : Shows cfg ep ss)
    {data : Dict String V} (hd : data.keys.Nodup) {s : Step V M}
    (hc : ∀ k, data.get? k = contributes cfg.useTerminal cfg.float k s) : Shows cfg (ep.append data) (ss ++ [s]) := by
  refine ⟨Episode.nodup_append _ _ hs.nodup, ?_, ?_⟩
  · intro k
    rw [Episode.touch_append _ _ hd, hs.cols k, hc k, column_append]
    congr 1
  · intro k hk
    rcases (Episode.mem_keys_append _ _ _).1 hk with h | h
    · rcases hs.keys k h with h | h
      · exact Or.inl h
      · right; rw [column_append]; simp [h]
    · right
      obtain ⟨v, hv⟩ := Dict.get?_isSome_of_mem h
      rw [hc k] at hv
      rw [column_append]
      simp [column, hv]

theorem shows_nil (cfg : ProxyCfg V) : Shows cfg [] ([] : List (Step V M)) :=
  ⟨List.nodup_nil, fun _ => rfl, fun _ h => by simp at h⟩

theorem minLengthFilter_shows {cfg : ProxyCfg V} {ep : Episode V} {ss : List (Step V M)} (hs : Shows cfg ep ss) :
    Shows cfg (Proxy.minLengthFilter cfg ep).1 ss ∧ (Proxy.minLengthFilter cfg ep).2 = longEnough cfg ss := by
  unfold Proxy.minLengthFilter longEnough
  cases cfg.minLength with
  | none => exact ⟨hs, rfl⟩
  | some m =>
    refine ⟨?_, by simp only [hs.cols]⟩
    simp only
    unfold Episode.touch
    cases hk : Dict.get? ep cfg.lengthKey with
    | some l => exact hs
    | none =>
      refine ⟨Dict.nodup_set hs.nodup, ?_, ?_⟩
      · intro k
        rw [← hs.cols k]
        unfold Episode.touch
        by_cases h : cfg.lengthKey = k
        · subst h; rw [Dict.get?_set_self, hk]
        · rw [Dict.get?_set_ne h]; cases Dict.get? ep k <;> rfl
      · intro k hk'
        rw [Dict.mem_keys_set] at hk'
        rcases hk' with h | h
        · exact Or.inl h
        · exact hs.keys k h

theorem isTerm_eq (s : Step V M) : Proxy.isTerm s.obs.state = s.ends := by
  unfold Proxy.isTerm Step.ends
  cases s.obs.state <;> rfl

/-- One observation that does not raise. -/
theorem observe_ok {cfg : ProxyCfg V} {c : Call V M} (hw : c.WF) {a : Int} {o : Obs V M}
    (ho : (a, o) ∈ c.observations) {p p' : Proxy V T} {done done' : Dict Int (Episode V)} {h : List (Step V M)}
    (hinv : ProxyInv cfg p h) (hd : a ∉ done.keys)
    (hr : Proxy.observe cfg c.responses (a, o) (p, done) = ((p', done'), .ok ())) :
    ProxyInv cfg p' (h ++ [⟨a, o, c.responses.get? a⟩]) ∧ p'.table = p.table ∧
      ∃ new : List (Int × Episode V), done' = done ++ new ∧ (∀ x ∈ new, x.1 = a) ∧
        List.Forall₂ (fun got want => got.1 = want.1 ∧ Shows cfg got.2 want.2) new
          (delivered cfg h [(⟨a, o, c.responses.get? a⟩ : Step V M)]) := by
  set s : Step V M := ⟨a, o, c.responses.get? a⟩ with hs
  have harr := hw.arrays a o ho
  -- the data of the observation
  have hdata : ∀ data, Proxy.obsData p a o = .ok data → data.keys.Nodup ∧
      (∀ k, data.get? k = if k = "rewards" ∧ o.state ≠ .initial then o.rewards.get? "reward" else o.arrays.get? k) ∧
      (o.state = .initial → p.store.contains a = false) := by
    intro data hda
    unfold Proxy.obsData at hda
    by_cases hi : o.state ≠ .initial
    · rw [if_pos hi] at hda
      cases hrw : Dict.get? o.rewards "reward" with
      | none => rw [hrw] at hda; simp at hda
      | some r =>
        rw [hrw] at hda
        injection hda with hda
        subst hda
        refine ⟨Dict.nodup_set harr, ?_, fun h => absurd h hi⟩
        intro k
        rw [Dict.get?_set]
        by_cases hk : k = "rewards"
        · subst hk; simp [hi]
        · simp [hk, Ne.symm hk]
    · rw [if_neg hi] at hda
      split at hda
      · simp at hda
      · rename_i hcon
        injection hda with hda
        subst hda
        refine ⟨harr, ?_, fun _ => by simpa using hcon⟩
        intro k; simp [hi]
  unfold Proxy.observe at hr
  simp only at hr
  cases hod : Proxy.obsData p a o with
  | error e => rw [hod] at hr; simp at hr
  | ok data =>
    obtain ⟨hnd, hget, hinit⟩ := hdata data hod
    rw [hod] at hr
    simp only at hr
    have hterm : Proxy.isTerm o.state = s.ends := isTerm_eq s
    by_cases he : s.ends = true
    · -- the episode ends
      rw [hterm, if_pos he] at hr
      have hni : o.state ≠ .initial := by
        intro h1; rw [← hterm, h1] at he; simp [Proxy.isTerm] at he
      set data' := if cfg.useTerminal then data.set "terminal" (cfg.float (o.state = .interrupted)) else data with hd'
      have hnd' : data'.keys.Nodup := by
        rw [hd']; split
        · exact Dict.nodup_set hnd
        · exact hnd
      have hc : ∀ k, data'.get? k = contributes cfg.useTerminal cfg.float k s := by
        intro k
        unfold contributes
        rw [if_pos he, hd']
        cases hut : cfg.useTerminal with
        | false => simp [hget k, hni, hs]
        | true =>
          simp only [if_true, Bool.true_and, decide_eq_true_eq]
          rw [Dict.get?_set]
          by_cases hk : k = "terminal"
          · subst hk; simp [hs]
          · rw [if_neg (Ne.symm hk), if_neg hk, hget k]; simp [hni, hs]
      cases hst : Dict.get? p.store a with
      | none =>
        simp only [hst] at hr
        injection hr with hr _
        injection hr with hr1 hr2
        subst hr1 hr2
        have hon := hinv.none a hst
        refine ⟨⟨hinv.nodup, ?_, ?_⟩, rfl, [], by simp, by simp, ?_⟩
        · intro b hb
          by_cases hab : a = b
          · subst hab; exact ongoing_snoc_ends h rfl he
          · rw [ongoing_snoc_other h (by simpa [hs] using hab)]; exact hinv.none b hb
        · intro b ep hb
          by_cases hab : a = b
          · subst hab; simp only at hb; rw [hst] at hb; cases hb
          · rw [ongoing_snoc_other h (by simpa [hs] using hab)]; exact hinv.some b ep hb
        · simp [delivered, hon, hs]
      | some ep =>
        simp only [hst] at hr
        injection hr with hr _
        injection hr with hr1 hr2
        subst hr1
        obtain ⟨hne, hsh⟩ := hinv.some a ep hst
        have hsh' := shows_step hsh hnd' hc
        obtain ⟨hf1, hf2⟩ := minLengthFilter_shows hsh'
        refine ⟨⟨Dict.nodup_erase hinv.nodup, ?_, ?_⟩, rfl, ?_⟩
        · intro b hb
          by_cases hab : a = b
          · subst hab; exact ongoing_snoc_ends h rfl he
          · rw [ongoing_snoc_other h (by simpa [hs] using hab)]
            simp only at hb
            rw [Dict.get?_erase hinv.nodup, if_neg hab] at hb
            exact hinv.none b hb
        · intro b ep' hb
          simp only at hb
          rw [Dict.get?_erase hinv.nodup] at hb
          by_cases hab : a = b
          · rw [if_pos hab] at hb; cases hb
          · rw [if_neg hab] at hb
            rw [ongoing_snoc_other h (by simpa [hs] using hab)]; exact hinv.some b ep' hb
        · have hemp : (ongoing s.agent h).isEmpty = false := by
            cases hc : ongoing a h with
            | nil => exact absurd hc hne
            | cons _ _ => simp [hs, hc]
          have hdel : delivered cfg h [s] =
              if longEnough cfg (ongoing a h ++ [s]) then [(a, ongoing a h ++ [s])] else [] := by
            simp [delivered, he, hemp]
            rfl
          rw [hdel, ← hr2, hf2]
          split
          · refine ⟨[(a, _)], Dict.set_of_not_mem hd, by simp, List.Forall₂.cons ⟨rfl, hf1⟩ List.Forall₂.nil⟩
          · exact ⟨[], by simp, by simp, List.Forall₂.nil⟩
    · -- the episode goes on
      have he' : s.ends = false := by simpa using he
      rw [hterm, if_neg (by simp [he'])] at hr
      have hstate : o.state = .initial ∨ o.state = .running := by
        cases hos : o.state with
        | initial => exact Or.inl rfl
        | running => exact Or.inr rfl
        | terminal => rw [← hterm, hos] at he'; simp [Proxy.isTerm] at he'
        | interrupted => rw [← hterm, hos] at he'; simp [Proxy.isTerm] at he'
      have hdel : delivered cfg h [s] = [] := by simp [delivered, he']
      cases hrs : Dict.get? c.responses a with
      | none => rw [hrs] at hr; simp at hr
      | some resp =>
        rw [hrs] at hr
        simp only at hr
        injection hr with hr _
        injection hr with hr1 hr2
        subst hr1 hr2
        obtain ⟨hl, hsc⟩ := hw.resp a resp (Dict.mem_of_get? hrs)
        set data' := (data.update resp.listData).update resp.scalarData with hd'
        have hnd' : data'.keys.Nodup := Dict.nodup_update _ _ (Dict.nodup_update _ _ hnd)
        have hc : ∀ k, data'.get? k = contributes cfg.useTerminal cfg.float k s := by
          intro k
          unfold contributes
          rw [if_neg (by simp [he'])]
          simp only [hs, hrs]
          rw [hd', Dict.get?_update _ _ hsc, Dict.get?_update _ _ hl, hget k]
          cases Dict.get? resp.scalarData k with
          | some v => rfl
          | none =>
            cases Dict.get? resp.listData k with
            | some v => rfl
            | none => rcases hstate with h1 | h1 <;> simp [h1]
        have hsh : ∀ ep', (match Dict.get? p.store a with
              | none => Episode.append [] data'
              | some ep => ep.append data') = ep' → Shows cfg ep' (ongoing a h ++ [s]) := by
          intro ep' hep
          cases hst : Dict.get? p.store a with
          | none =>
            rw [hst] at hep; subst hep
            rw [hinv.none a hst]
            exact shows_step (shows_nil cfg) hnd' hc
          | some ep =>
            rw [hst] at hep; subst hep
            exact shows_step (hinv.some a ep hst).2 hnd' hc
        refine ⟨⟨Dict.nodup_set hinv.nodup, ?_, ?_⟩, rfl, [], by simp, by simp, by rw [hdel]; exact List.Forall₂.nil⟩
        · intro b hb
          simp only at hb
          rw [Dict.get?_set] at hb
          by_cases hab : a = b
          · rw [if_pos hab] at hb; cases hb
          · rw [if_neg hab] at hb
            rw [ongoing_snoc_other h (by simpa [hs] using hab)]; exact hinv.none b hb
        · intro b ep' hb
          simp only at hb
          rw [Dict.get?_set] at hb
          by_cases hab : a = b
          · rw [if_pos hab] at hb
            subst hab
            injection hb with hb
            rw [ongoing_snoc h rfl he']
            exact ⟨by simp, hsh ep' hb⟩
          · rw [if_neg hab] at hb
            rw [ongoing_snoc_other h (by simpa [hs] using hab)]; exact hinv.some b ep' hb

theorem observeAll_ok {cfg : ProxyCfg V} {c : Call V M} (hw : c.WF) (obs : List (Int × Obs V M))
    (hsub : ∀ x ∈ obs, x ∈ c.observations) (hnd : (Dict.keys obs).Nodup) {p p' : Proxy V T}
    {done done' : Dict Int (Episode V)} {h : List (Step V M)} (hinv : ProxyInv cfg p h)
    (hd : ∀ a ∈ Dict.keys obs, a ∉ done.keys)
    (hr : Res.forEach obs (Proxy.observe cfg c.responses) (p, done) = ((p', done'), .ok ())) :
    ProxyInv cfg p' (h ++ obs.map fun ao => ⟨ao.1, ao.2, c.responses.get? ao.1⟩) ∧ p'.table = p.table ∧
      ∃ new : List (Int × Episode V), done' = done ++ new ∧ (∀ x ∈ new, x.1 ∈ Dict.keys obs) ∧
        List.Forall₂ (fun got want => got.1 = want.1 ∧ Shows cfg got.2 want.2) new
          (delivered cfg h (obs.map fun ao => ⟨ao.1, ao.2, c.responses.get? ao.1⟩)) := by
  induction obs generalizing p done h with
  | nil =>
    simp only [Res.forEach] at hr
    injection hr with hr _
    injection hr with h1 h2
    subst h1 h2
    exact ⟨by simpa using hinv, rfl, [], by simp, by simp, List.Forall₂.nil⟩
  | cons ao obs ih =>
    obtain ⟨a, o⟩ := ao
    simp only [Res.forEach] at hr
    obtain ⟨⟨p1, done1⟩, _, h1, h2⟩ := Res.andThen_eq_ok.1 hr
    simp only [Dict.keys_cons, List.nodup_cons] at hnd
    obtain ⟨i1, t1, new1, e1, m1, f1⟩ := observe_ok hw (hsub _ (by simp)) hinv (hd a (by simp)) h1
    obtain ⟨i2, t2, new2, e2, m2, f2⟩ := ih (fun x hx => hsub x (by simp [hx])) hnd.2 i1 (by
      intro b hb
      rw [e1]
      simp only [Dict.keys_append, List.mem_append, not_or]
      refine ⟨hd b (by simp [hb]), ?_⟩
      intro hm
      obtain ⟨x, hx, rfl⟩ := List.mem_map.1 hm
      rw [m1 x hx] at hb
      exact hnd.1 hb) h2
    refine ⟨by simpa [List.append_assoc] using i2, by rw [t2, t1], new1 ++ new2, by rw [e2, e1, List.append_assoc],
      ?_, ?_⟩
    · intro x hx
      rcases List.mem_append.1 hx with hx | hx
      · simp [m1 x hx]
      · simp [m2 x hx]
    · rw [List.map_cons, show ∀ (s : Step V M) l, s :: l = [s] ++ l from fun _ _ => rfl, delivered_append]
      exact List.rel_append f1 f2

end Verif
