import Verif.Lemmas.Proxy
import Verif.Lemmas.List
import Mathlib.Data.List.TakeWhile

/-!
# C27 - C30: episode assembly
-/

namespace Verif.Props

open Verif Spec

variable {V : Type u} {M : Type v} {T : Type w}

/-- The memory together with a record of the `add_sequence` calls it got. -/
def recording (mem : Int → Episode V → T → Res T Unit) (a : Int) (ep : Episode V)
    (t : List (Int × Episode V) × T) : Res (List (Int × Episode V) × T) Unit :=
  Res.lift (fun t' => (t.1 ++ [(a, ep)], t')) (mem a ep t.2)

/-- A stream of `add` calls; it stops at the first one that raises. -/
def addAll (cfg : ProxyCfg V) (mem : Int → Episode V → T → Res T Unit) (calls : List (Call V M))
    (p : Proxy V T) : Res (Proxy V T) Unit :=
  Res.forEach calls (fun c => Proxy.add cfg mem c.observations c.responses) p

/-- The recorded calls are what was delivered: same agents in the same order, and every column (missing ones
read as empty, the dict being a `defaultdict`) holds exactly the agent's own values in order. -/
def Matches (cfg : ProxyCfg V) (got : List (Int × Episode V)) (want : List (Int × List (Step V M))) : Prop :=
  List.Forall₂ (fun g w => g.1 = w.1 ∧ Shows cfg g.2 w.2) got want

theorem flush_recording {cfg : ProxyCfg V} {mem : Int → Episode V → T → Res T Unit} (done : Dict Int (Episode V))
    {p p' : Proxy V (List (Int × Episode V) × T)} {h : List (Step V M)} (hinv : ProxyInv cfg p h)
    (hr : Proxy.flush (recording mem) done p = (p', .ok ())) :
    ProxyInv cfg p' h ∧ p'.table.1 = p.table.1 ++ done := by
  unfold Proxy.flush at hr
  induction done generalizing p with
  | nil =>
    simp only [Res.forEach] at hr
    injection hr with hr _
    subst hr
    exact ⟨hinv, by simp⟩
  | cons ae done ih =>
    simp only [Res.forEach] at hr
    obtain ⟨p1, _, h1, h2⟩ := Res.andThen_eq_ok.1 hr
    injection h1 with h1 _
    obtain ⟨i, t⟩ := ih (p := p1) (by subst h1; exact ⟨hinv.nodup, hinv.none, hinv.some⟩) h2
    refine ⟨i, ?_⟩
    rw [t, ← h1]
    simp [recording, Res.lift]

theorem add_recording {cfg : ProxyCfg V} {mem : Int → Episode V → T → Res T Unit} {c : Call V M} (hw : c.WF)
    {p p' : Proxy V (List (Int × Episode V) × T)} {h : List (Step V M)} (hinv : ProxyInv cfg p h)
    (hr : Proxy.add cfg (recording mem) c.observations c.responses p = (p', .ok ())) :
    ProxyInv cfg p' (h ++ c.steps) ∧
      ∃ new, p'.table.1 = p.table.1 ++ new ∧ Matches cfg new (delivered cfg h c.steps) := by
  unfold Proxy.add at hr
  rcases hf : Res.forEach c.observations (Proxy.observe cfg c.responses) (p, []) with ⟨⟨p1, done⟩, x⟩
  rw [hf] at hr
  cases x with
  | error e => simp at hr
  | ok u =>
    simp only at hr
    obtain ⟨i, t, new, e, _, f⟩ := observeAll_ok hw c.observations (fun _ h => h) hw.agents hinv (by simp) hf
    obtain ⟨i2, t2⟩ := flush_recording done i hr
    refine ⟨i2, new, ?_, f⟩
    rw [t2, e, t]; rfl

theorem addAll_recording {cfg : ProxyCfg V} {mem : Int → Episode V → T → Res T Unit} (calls : List (Call V M))
    (hw : ∀ c ∈ calls, c.WF) {p p' : Proxy V (List (Int × Episode V) × T)} {h : List (Step V M)}
    (hinv : ProxyInv cfg p h) (hr : addAll cfg (recording mem) calls p = (p', .ok ())) :
    ProxyInv cfg p' (h ++ calls.flatMap Call.steps) ∧
      ∃ new, p'.table.1 = p.table.1 ++ new ∧ Matches cfg new (delivered cfg h (calls.flatMap Call.steps)) := by
  unfold addAll at hr
  induction calls generalizing p h with
  | nil =>
    simp only [Res.forEach] at hr
    injection hr with hr _
    subst hr
    exact ⟨by simpa using hinv, [], by simp, List.Forall₂.nil⟩
  | cons c calls ih =>
    simp only [Res.forEach] at hr
    obtain ⟨p1, _, h1, h2⟩ := Res.andThen_eq_ok.1 hr
    obtain ⟨i1, n1, e1, m1⟩ := add_recording (hw c (by simp)) hinv h1
    obtain ⟨i2, n2, e2, m2⟩ := ih (fun c hc => hw c (by simp [hc])) i1 h2
    refine ⟨by simpa [List.append_assoc] using i2, n1 ++ n2, by rw [e2, e1, List.append_assoc], ?_⟩
    rw [List.flatMap_cons, delivered_append]
    exact List.rel_append m1 m2

theorem inv_new (cfg : ProxyCfg V) (t : T) : ProxyInv cfg (Proxy.new t : Proxy V T) ([] : List (Step V M)) :=
  ⟨List.nodup_nil, fun _ _ => rfl, fun _ _ h => by simp [Proxy.new, Dict.get?] at h⟩

/-- `Call.WF` in a form that can be computed. -/
theorem Call.wf_of {c : Call V M} (h1 : c.observations.keys.Nodup)
    (h2 : ∀ x ∈ c.observations, x.2.arrays.keys.Nodup)
    (h3 : ∀ x ∈ c.responses, x.2.listData.keys.Nodup ∧ x.2.scalarData.keys.Nodup) : c.WF :=
  ⟨h1, fun _ _ h => h2 _ h, fun _ _ h => h3 _ h⟩

/-! ## C27 -/

/-- C27: in a stream of `add` calls none of which raises, the sequences handed to the memory are exactly the
agents' ended episodes: one per ended episode (of sufficient length), in the order in which they end, each
column being the values of the agent's own steps since its previous episode ended. Any number of agents, any
interleaving, any memory. -/
theorem C27_episodes_per_agent {cfg : ProxyCfg V} {mem : Int → Episode V → T → Res T Unit}
    (calls : List (Call V M)) (hw : ∀ c ∈ calls, c.WF) (t0 : T) {p : Proxy V (List (Int × Episode V) × T)}
    (hr : addAll cfg (recording mem) calls (Proxy.new ([], t0)) = (p, .ok ())) :
    Matches cfg p.table.1 (delivered cfg [] (calls.flatMap Call.steps)) := by
  obtain ⟨_, new, e, m⟩ := addAll_recording calls hw (inv_new cfg ([], t0)) hr
  rw [e]
  simpa [Proxy.new] using m

/-- One delivered column: what `sequence[k]` of a delivered sequence is. -/
theorem matches_columns {cfg : ProxyCfg V} {got : List (Int × Episode V)} {want : List (Int × List (Step V M))}
    (h : Matches cfg got want) {n : Nat} {a : Int} {ep : Episode V} (hg : got[n]? = some (a, ep)) :
    ∃ ss, want[n]? = some (a, ss) ∧
      ∀ k, (ep.touch k).2 = ss.filterMap (contributes cfg.useTerminal cfg.float k) := by
  induction h generalizing n with
  | nil => simp at hg
  | @cons g w gs ws hgw _ ih =>
    cases n with
    | zero =>
      simp only [List.getElem?_cons_zero, Option.some.injEq] at hg
      subst hg
      exact ⟨w.2, by simp only [List.getElem?_cons_zero, Option.some.injEq]; exact Prod.ext hgw.1.symm rfl, hgw.2.cols⟩
    | succ n => exact ih (by simpa using hg)

/-- The steps of a delivered episode are all of its own agent, consecutive among that agent's steps; only
the last one ends the episode. -/
theorem delivered_own_steps (cfg : ProxyCfg V) (h : List (Step V M)) {a : Int} {ss : List (Step V M)}
    (hm : (a, ss) ∈ delivered cfg [] h) :
    ∃ pre s post, h = pre ++ s :: post ∧ s.agent = a ∧ s.ends = true ∧
      ss = ongoing a pre ++ [s] ∧ ongoing a pre ≠ [] ∧ longEnough cfg ss = true := by
  have key : ∀ (past h : List (Step V M)), (a, ss) ∈ delivered cfg past h →
      ∃ pre s post, h = pre ++ s :: post ∧ s.agent = a ∧ s.ends = true ∧
        ss = ongoing a (past ++ pre) ++ [s] ∧ ongoing a (past ++ pre) ≠ [] ∧ longEnough cfg ss = true := by
    intro past h
    induction h generalizing past with
    | nil => intro hm; simp [delivered] at hm
    | cons s h ih =>
      intro hm
      rw [delivered, List.mem_append] at hm
      rcases hm with hm | hm
      · split at hm
        · rename_i hc
          simp only [Bool.and_eq_true, Bool.not_eq_true', List.isEmpty_eq_false_iff] at hc
          simp only [List.mem_singleton] at hm
          injection hm with h1 h2
          subst h1
          exact ⟨[], s, h, rfl, rfl, hc.1.1, by simpa using h2, by simpa using hc.1.2, by rw [h2]; exact hc.2⟩
        · simp at hm
      · obtain ⟨pre, s', post, e1, e2, e3, e4, e5, e6⟩ := ih _ hm
        refine ⟨s :: pre, s', post, by rw [e1]; rfl, e2, e3, ?_, ?_, e6⟩
        · simpa [List.append_assoc] using e4
        · simpa [List.append_assoc] using e5
  simpa using key [] h hm

/-- C27, one delivered sequence: column `k` of it has the values of the agent's own steps, from the one after its previous end to an
end of its own, consecutive among that agent's steps; no other step in between ends the episode, and it is not too short. -/
theorem C27_own_steps {cfg : ProxyCfg V} {mem : Int → Episode V → T → Res T Unit}
    (calls : List (Call V M)) (hw : ∀ c ∈ calls, c.WF) (t0 : T) {p : Proxy V (List (Int × Episode V) × T)}
    (hr : addAll cfg (recording mem) calls (Proxy.new ([], t0)) = (p, .ok ())) {n : Nat} {a : Int} {ep : Episode V}
    (hg : p.table.1[n]? = some (a, ep)) :
    ∃ pre s post, calls.flatMap Call.steps = pre ++ s :: post ∧ s.agent = a ∧ s.ends = true ∧ ongoing a pre ≠ [] ∧
      longEnough cfg (ongoing a pre ++ [s]) = true ∧
      ∀ k, (ep.touch k).2 = (ongoing a pre ++ [s]).filterMap (contributes cfg.useTerminal cfg.float k) := by
  obtain ⟨ss, h1, h2⟩ := matches_columns (C27_episodes_per_agent calls hw t0 hr) hg
  obtain ⟨pre, s, post, g1, g2, g3, g4, g5, g6⟩ := delivered_own_steps cfg _ (List.mem_of_getElem? h1)
  subst g4
  exact ⟨pre, s, post, g1, g2, g3, g5, g6, h2⟩

/-! ## C28 -/

/-- C28: `is_initial` tells exactly which agents have no ongoing episode. -/
theorem C28_is_initial {cfg : ProxyCfg V} {mem : Int → Episode V → T → Res T Unit}
    (calls : List (Call V M)) (hw : ∀ c ∈ calls, c.WF) (t0 : T) {p : Proxy V (List (Int × Episode V) × T)}
    (hr : addAll cfg (recording mem) calls (Proxy.new ([], t0)) = (p, .ok ())) (a : Int) :
    p.isInitial a = true ↔ ongoing a (calls.flatMap Call.steps) = [] := by
  obtain ⟨i, _⟩ := addAll_recording calls hw (inv_new cfg ([], t0)) hr
  rw [List.nil_append] at i
  unfold Proxy.isInitial
  rw [Bool.not_eq_true', Dict.contains_false_iff, ← Dict.get?_none_iff]
  constructor
  · exact i.none a
  · intro h
    cases hg : Dict.get? p.store a with
    | none => rfl
    | some ep => exact absurd h (i.some a ep hg).1

/-- C28: the number of sequences delivered for an agent is the number of its endings of an ongoing episode of
sufficient length. -/
theorem C28_exactly_once {cfg : ProxyCfg V} {mem : Int → Episode V → T → Res T Unit}
    (calls : List (Call V M)) (hw : ∀ c ∈ calls, c.WF) (t0 : T) {p : Proxy V (List (Int × Episode V) × T)}
    (hr : addAll cfg (recording mem) calls (Proxy.new ([], t0)) = (p, .ok ())) (a : Int) :
    (p.table.1.filter (fun x => x.1 = a)).length =
      ((List.range (calls.flatMap Call.steps).length).filter fun n =>
        match (calls.flatMap Call.steps)[n]? with
        | none => false
        | some s => decide (s.agent = a) && s.ends
            && !(ongoing a ((calls.flatMap Call.steps).take n)).isEmpty
            && longEnough cfg (ongoing a ((calls.flatMap Call.steps).take n) ++ [s])).length := by
  have hm := C27_episodes_per_agent calls hw t0 hr
  have h1 : (p.table.1.filter (fun x => x.1 = a)).length
      = ((delivered cfg [] (calls.flatMap Call.steps)).filter (fun x => x.1 = a)).length := by
    generalize p.table.1 = got at hm
    generalize delivered cfg [] (calls.flatMap Call.steps) = want at hm
    unfold Matches at hm
    induction hm with
    | nil => rfl
    | cons hgw _ ih =>
      simp only [List.filter_cons, hgw.1]
      split
      · simp [ih]
      · exact ih
  rw [h1]
  clear h1 hm hr
  generalize calls.flatMap Call.steps = h
  have key : ∀ (rest past : List (Step V M)), past ++ rest = h →
      ((delivered cfg past rest).filter (fun x => x.1 = a)).length =
      ((List.range' past.length rest.length).filter fun n =>
        match h[n]? with
        | none => false
        | some s => decide (s.agent = a) && s.ends && !(ongoing a (h.take n)).isEmpty
            && longEnough cfg (ongoing a (h.take n) ++ [s])).length := by
    intro rest
    induction rest with
    | nil => intro past _; rfl
    | cons s rest ih =>
      intro past hp
      have hg : h[past.length]? = some s := by rw [← hp]; simp
      have ht : h.take past.length = past := by rw [← hp]; simp
      have := ih (past ++ [s]) (by simpa [List.append_assoc] using hp)
      rw [List.length_append, List.length_singleton] at this
      rw [List.length_cons, List.range'_succ, List.filter_cons, delivered, List.filter_append, List.length_append, this]
      simp only [hg, ht]
      by_cases ha : s.agent = a
      · subst ha
        simp only [decide_true, Bool.true_and]
        by_cases hc : (s.ends && !(ongoing s.agent past).isEmpty && longEnough cfg (ongoing s.agent past ++ [s])) = true
        · rw [if_pos hc, if_pos hc]; simp; omega
        · rw [if_neg hc, if_neg hc]; simp
      · simp only [ha, decide_false, Bool.false_and]
        have : (List.filter (fun x : Int × List (Step V M) => decide (x.1 = a))
            (if (s.ends && !(ongoing s.agent past).isEmpty && longEnough cfg (ongoing s.agent past ++ [s])) = true
              then [(s.agent, ongoing s.agent past ++ [s])] else [])) = [] := by
          split <;> simp [ha]
        rw [this]
        simp
  have := key h [] rfl
  rw [this, List.range_eq_range']
  rfl

/-- C28: endings of agents without an ongoing episode change nothing but the set of agents that ended:
the memory is not called, all ongoing episodes stay. (`rewards` has to contain the reward, as for every
observation but the first.) -/
theorem C28_stray_termination {cfg : ProxyCfg V} (mem : Int → Episode V → T → Res T Unit) (c : Call V M) {p : Proxy V T}
    (he : ∀ a o, (a, o) ∈ c.observations → (o.state = .terminal ∨ o.state = .interrupted) ∧
      "reward" ∈ o.rewards.keys ∧ p.isInitial a = true) :
    ∃ done, Proxy.add cfg mem c.observations c.responses p = ({ p with completed := done }, .ok ()) := by
  have key : ∀ (obs : List (Int × Obs V M)) (p : Proxy V T),
      (∀ a o, (a, o) ∈ obs → (o.state = .terminal ∨ o.state = .interrupted) ∧
        "reward" ∈ o.rewards.keys ∧ p.isInitial a = true) →
      ∃ d, Res.forEach obs (Proxy.observe cfg c.responses) (p, []) = (({ p with completed := d }, []), .ok ()) := by
    intro obs
    induction obs with
    | nil => intro p _; exact ⟨p.completed, rfl⟩
    | cons ao obs ih =>
      obtain ⟨a, o⟩ := ao
      intro p h
      obtain ⟨he, hrw, hi⟩ := h a o (by simp)
      obtain ⟨r, hr⟩ := Dict.get?_isSome_of_mem hrw
      have hs : Dict.get? p.store a = none := by
        unfold Proxy.isInitial at hi
        rw [Bool.not_eq_true', Dict.contains_false_iff, ← Dict.get?_none_iff] at hi
        exact hi
      have hne : o.state ≠ .initial := by rcases he with h | h <;> simp [h]
      have ht : Proxy.isTerm o.state = true := by rcases he with h | h <;> simp [h, Proxy.isTerm]
      have h1 : Proxy.observe cfg c.responses (a, o) (p, []) =
          (({ p with completed := if a ∈ p.completed then p.completed else p.completed ++ [a] }, []), .ok ()) := by
        unfold Proxy.observe Proxy.obsData
        simp only [if_pos hne, hr, if_pos ht, hs]
      obtain ⟨d, hd⟩ := ih { p with completed := if a ∈ p.completed then p.completed else p.completed ++ [a] }
        (fun b o' hb => h b o' (by simp [hb]))
      exact ⟨d, by simp only [Res.forEach, h1, Res.andThen_ok]; exact hd⟩
  obtain ⟨d, hd⟩ := key c.observations p he
  exact ⟨d, by unfold Proxy.add; rw [hd]; rfl⟩

/-- C28: a call in which every observation follows the protocol is accepted, whatever else is going on, if the
memory accepts the sequences. -/
theorem C28_accepts {cfg : ProxyCfg V} {mem : Int → Episode V → T → Res T Unit}
    (hmem : ∀ a ep t, (mem a ep t).2 = .ok ()) {c : Call V M} (hw : c.WF) {p : Proxy V T}
    (hrw : ∀ a o, (a, o) ∈ c.observations → o.state ≠ .initial → "reward" ∈ o.rewards.keys)
    (hin : ∀ a o, (a, o) ∈ c.observations → o.state = .initial → p.isInitial a = true)
    (hrs : ∀ a o, (a, o) ∈ c.observations → o.state = .initial ∨ o.state = .running → a ∈ c.responses.keys) :
    (Proxy.add cfg mem c.observations c.responses p).2 = .ok () := by
  have hflush : ∀ (done : Dict Int (Episode V)) (p : Proxy V T), (Proxy.flush mem done p).2 = .ok () := by
    intro done
    unfold Proxy.flush
    induction done with
    | nil => intro p; rfl
    | cons ae done ih =>
      intro p
      simp only [Res.forEach]
      have := hmem ae.1 ae.2 p.table
      rcases hm : mem ae.1 ae.2 p.table with ⟨t, x⟩
      rw [hm] at this
      simp only at this
      subst this
      exact ih _
  have key : ∀ (obs : List (Int × Obs V M)), (∀ x ∈ obs, x ∈ c.observations) → (Dict.keys obs).Nodup →
      ∀ (p : Proxy V T) (done : Dict Int (Episode V)),
        (∀ a o, (a, o) ∈ obs → o.state = .initial → p.store.contains a = false) →
        (Res.forEach obs (Proxy.observe cfg c.responses) (p, done)).2 = .ok () := by
    intro obs
    induction obs with
    | nil => intro _ _ p done _; rfl
    | cons ao obs ih =>
      obtain ⟨a, o⟩ := ao
      intro hsub hnd p done hin
      simp only [Dict.keys_cons, List.nodup_cons] at hnd
      have hmem' := hsub (a, o) (by simp)
      have hone : ∃ p' done', Proxy.observe cfg c.responses (a, o) (p, done) = ((p', done'), .ok ()) ∧
          ∀ b, b ≠ a → p'.store.contains b = true → p.store.contains b = true := by
        have hdata : ∃ data, Proxy.obsData p a o = .ok data := by
          unfold Proxy.obsData
          by_cases hi : o.state ≠ .initial
          · rw [if_pos hi]
            obtain ⟨r, hr⟩ := Dict.get?_isSome_of_mem (hrw a o hmem' hi)
            exact ⟨_, by rw [hr]⟩
          · rw [if_neg hi, if_neg (by simpa using hin a o (by simp) (by simpa using hi))]
            exact ⟨_, rfl⟩
        obtain ⟨data, hdata⟩ := hdata
        unfold Proxy.observe
        simp only [hdata]
        by_cases ht : Proxy.isTerm o.state = true
        · rw [if_pos ht]
          cases hs : Dict.get? p.store a with
          | none => exact ⟨_, _, rfl, fun b _ h => h⟩
          | some ep =>
            refine ⟨_, _, rfl, ?_⟩
            intro b _ hb
            simp only at hb
            rw [Dict.contains_iff] at hb ⊢
            rw [Dict.keys_erase] at hb
            exact List.mem_of_mem_erase hb
        · rw [if_neg ht]
          have : o.state = .initial ∨ o.state = .running := by
            cases hos : o.state with
            | initial => exact Or.inl rfl
            | running => exact Or.inr rfl
            | terminal => rw [hos] at ht; simp [Proxy.isTerm] at ht
            | interrupted => rw [hos] at ht; simp [Proxy.isTerm] at ht
          obtain ⟨r, hr⟩ := Dict.get?_isSome_of_mem (hrs a o hmem' this)
          simp only [hr]
          refine ⟨_, _, rfl, ?_⟩
          intro b hb hc
          simp only at hc
          rw [Dict.contains_iff, Dict.mem_keys_set] at hc
          rw [Dict.contains_iff]
          rcases hc with hc | hc
          · exact absurd hc hb
          · exact hc
      obtain ⟨p', done', ho, hkeep⟩ := hone
      simp only [Res.forEach, ho, Res.andThen_ok]
      apply ih (fun x hx => hsub x (by simp [hx])) hnd.2
      intro b o' hbo hi
      have h0 := hin b o' (by simp [hbo]) hi
      cases hb : p'.store.contains b with
      | false => rfl
      | true =>
        have hba : b ≠ a := by
          rintro rfl
          exact hnd.1 (Dict.mem_keys_of_mem hbo)
        rw [hkeep b hba hb] at h0
        exact absurd h0 (by simp)
  unfold Proxy.add
  have := key c.observations (fun _ h => h) hw.agents p [] (by
    intro a o hao hi
    have := hin a o hao hi
    unfold Proxy.isInitial at this
    simpa using this)
  rcases hf : Res.forEach c.observations (Proxy.observe cfg c.responses) (p, []) with ⟨⟨p1, done⟩, x⟩
  rw [hf] at this
  simp only at this
  subst this
  exact hflush done p1

/-! ## C29 -/

/-- A step as the environments and agent proxies of the package make them: the observation carries the feature
`f` (and nothing named like the action or the reward), the response carries the action. -/
structure WellFormed (f act : String) (s : Step V M) : Prop where
  names : f ≠ act ∧ f ≠ "rewards" ∧ act ≠ "rewards" ∧ f ≠ "terminal" ∧ act ≠ "terminal"
  feature : f ∈ s.obs.arrays.keys
  clean : act ∉ s.obs.arrays.keys ∧ "rewards" ∉ s.obs.arrays.keys
  reward : s.obs.state ≠ .initial → "reward" ∈ s.obs.rewards.keys
  resp : s.ends = false → ∃ r, s.resp = some r ∧ act ∈ r.listData.keys ∧
    f ∉ r.listData.keys ∧ f ∉ r.scalarData.keys ∧ "rewards" ∉ r.listData.keys ∧ "rewards" ∉ r.scalarData.keys

theorem filterMap_some_length {α : Type u} {β : Type v} (f : α → Option β) (l : List α) :
    (l.filterMap f).length = (l.filter fun x => (f x).isSome).length := by
  induction l with
  | nil => rfl
  | cons x l ih =>
    cases h : f x with
    | none => simp [h, ih]
    | some y => simp [h, ih]

theorem contributes_feature {f act : String} {s : Step V M} (hw : WellFormed f act s) (ut : Bool) (fl : Bool → V) :
    (contributes ut fl f s).isSome = true := by
  obtain ⟨v, hv⟩ := Dict.get?_isSome_of_mem hw.feature
  obtain ⟨_, h2, _, h4, _⟩ := hw.names
  unfold contributes
  cases he : s.ends with
  | true => simp [h2, h4, hv]
  | false =>
    obtain ⟨r, h1, _, h3, h3', _⟩ := hw.resp he
    simp only [h1, Dict.get?_none_iff.2 h3, Dict.get?_none_iff.2 h3', h2, decide_false, Bool.false_and]
    simp [hv]

theorem contributes_action {f act : String} {s : Step V M} (hw : WellFormed f act s) (ut : Bool) (fl : Bool → V) :
    (contributes ut fl act s).isSome = !s.ends := by
  obtain ⟨_, _, h3, _, h5⟩ := hw.names
  unfold contributes
  cases he : s.ends with
  | true => simp [h3, h5, Dict.get?_none_iff.2 hw.clean.1]
  | false =>
    obtain ⟨r, h1, h2, _⟩ := hw.resp he
    obtain ⟨v, hv⟩ := Dict.get?_isSome_of_mem h2
    simp only [h1]
    cases Dict.get? r.scalarData act <;> simp [hv]

theorem contributes_reward {f act : String} {s : Step V M} (hw : WellFormed f act s) (ut : Bool) (fl : Bool → V) :
    (contributes ut fl "rewards" s).isSome = !decide (s.obs.state = .initial) := by
  unfold contributes
  cases he : s.ends with
  | true =>
    have hni : s.obs.state ≠ .initial := by
      intro h; simp [Step.ends, h] at he
    obtain ⟨v, hv⟩ := Dict.get?_isSome_of_mem (hw.reward hni)
    simp [hv, hni]
  | false =>
    obtain ⟨r, h1, _, _, _, h5, h6⟩ := hw.resp he
    simp only [h1, Dict.get?_none_iff.2 h5, Dict.get?_none_iff.2 h6]
    by_cases hi : s.obs.state = .initial
    · simp [hi, Dict.get?_none_iff.2 hw.clean.2]
    · have : s.obs.state = .running := by
        cases hs : s.obs.state <;> simp_all [Step.ends]
      obtain ⟨v, hv⟩ := Dict.get?_isSome_of_mem (hw.reward hi)
      simp [this, hv]

/-- A delivered episode that began with an initial observation, all of whose steps are well formed, has
`n` actions, `n` rewards and `n + 1` observations, with `n > 0`. -/
theorem delivered_aligned {cfg : ProxyCfg V} {f act : String} {h : List (Step V M)} (hw : ∀ s ∈ h, WellFormed f act s)
    (hstart : ∀ pre s post, h = pre ++ s :: post → (s.obs.state = .initial ↔ ongoing s.agent pre = [] ∧ s.ends = false))
    {a : Int} {ep : Episode V} {ss : List (Step V M)} (hd : (a, ss) ∈ delivered cfg [] h) (hs : Shows cfg ep ss) :
    ∃ n, 0 < n ∧ (ep.touch act).2.length = n ∧ (ep.touch "rewards").2.length = n ∧
      (ep.touch f).2.length = n + 1 := by
  obtain ⟨pre, s, post, e1, e2, e3, e4, e5, _⟩ := delivered_own_steps cfg h hd
  have hon : ∀ s' ∈ ongoing a pre, s' ∈ h ∧ s'.ends = false := by
    intro s' hs'
    unfold ongoing at hs'
    rw [List.mem_reverse] at hs'
    have h1 := List.mem_takeWhile_imp hs'
    have h2 := (List.takeWhile_sublist _).subset hs'
    rw [List.mem_reverse, List.mem_filter] at h2
    exact ⟨by rw [e1]; simp [h2.1], by simpa using h1⟩
  have hsw : WellFormed f act s := hw s (by rw [e1]; simp)
  -- exactly the first step is initial
  have hfirst : ∀ (pre : List (Step V M)), (∀ p s q, pre = p ++ s :: q →
        (s.obs.state = .initial ↔ ongoing s.agent p = [] ∧ s.ends = false)) → ongoing a pre ≠ [] →
      ((ongoing a pre).filter fun s => decide (s.obs.state = .initial)).length = 1 := by
    intro pre
    induction pre using snocInduction with
    | nil => intro _ h; exact absurd rfl h
    | snoc pre x ih =>
      intro hp hne
      have hp' : ∀ p s q, pre = p ++ s :: q → (s.obs.state = .initial ↔ ongoing s.agent p = [] ∧ s.ends = false) :=
        fun p s q hq => hp p s (q ++ [x]) (by rw [hq]; simp)
      by_cases hx : x.agent = a
      · cases hxe : x.ends with
        | true => rw [ongoing_snoc_ends pre hx hxe] at hne; exact absurd rfl hne
        | false =>
          rw [ongoing_snoc pre hx hxe, List.filter_append, List.length_append]
          have := hp pre x [] rfl
          rw [hx] at this
          by_cases ho : ongoing a pre = []
          · have hi := this.2 ⟨ho, hxe⟩
            simp [ho, hi]
          · have hi : x.obs.state ≠ .initial := fun h => ho (this.1 h).1
            rw [ih hp' ho]
            simp [hi]
      · rw [ongoing_snoc_other pre hx] at hne ⊢
        exact ih hp' hne
  have h1 := hfirst pre (by
    intro p s' q hq
    apply hstart p s' (q ++ s :: post)
    rw [e1, hq]; simp) e5
  refine ⟨(ongoing a pre).length, List.length_pos_iff.2 e5, ?_, ?_, ?_⟩
  · rw [hs.cols, column, filterMap_some_length, e4, List.filter_append, List.length_append]
    have : (ongoing a pre).filter (fun x => (contributes cfg.useTerminal cfg.float act x).isSome) = ongoing a pre := by
      rw [List.filter_eq_self]
      intro x hx
      rw [contributes_action (hw x (hon x hx).1), (hon x hx).2]; rfl
    rw [this]
    simp [contributes_action hsw, e3]
  · rw [hs.cols, column, filterMap_some_length, e4, List.filter_append, List.length_append]
    have hni : s.obs.state ≠ .initial := by intro h; simp [Step.ends, h] at e3
    have : (ongoing a pre).filter (fun x => (contributes cfg.useTerminal cfg.float "rewards" x).isSome)
        = (ongoing a pre).filter (fun x => !decide (x.obs.state = .initial)) := by
      apply List.filter_congr
      intro x hx
      exact contributes_reward (hw x (hon x hx).1) _ _
    rw [this]
    have hsplit := List.length_eq_length_filter_add (l := ongoing a pre) (fun x => decide (x.obs.state = .initial))
    simp [contributes_reward hsw, hni]
    omega
  · rw [hs.cols, column, filterMap_some_length, e4, List.filter_append, List.length_append]
    have : (ongoing a pre).filter (fun x => (contributes cfg.useTerminal cfg.float f x).isSome) = ongoing a pre := by
      rw [List.filter_eq_self]
      intro x hx
      exact contributes_feature (hw x (hon x hx).1) _ _
    rw [this]
    simp [contributes_feature hsw]

/-- C29: if all episodes begin with an initial observation and all steps are well formed, then every sequence that the memory gets
has `n` actions, `n` rewards and `n + 1` observations, with `n > 0`. -/
theorem C29_aligned {cfg : ProxyCfg V} {mem : Int → Episode V → T → Res T Unit} {f act : String}
    (calls : List (Call V M)) (hc : ∀ c ∈ calls, c.WF) (t0 : T) {p : Proxy V (List (Int × Episode V) × T)}
    (hr : addAll cfg (recording mem) calls (Proxy.new ([], t0)) = (p, .ok ()))
    (hw : ∀ s ∈ calls.flatMap Call.steps, WellFormed f act s)
    (hstart : ∀ pre s post, calls.flatMap Call.steps = pre ++ s :: post →
      (s.obs.state = .initial ↔ ongoing s.agent pre = [] ∧ s.ends = false))
    {a : Int} {ep : Episode V} (hm : (a, ep) ∈ p.table.1) :
    ∃ n, 0 < n ∧ (ep.touch act).2.length = n ∧ (ep.touch "rewards").2.length = n ∧
      (ep.touch f).2.length = n + 1 := by
  have h := C27_episodes_per_agent calls hc t0 hr
  have key : ∀ {got : List (Int × Episode V)} {want : List (Int × List (Step V M))}, Matches cfg got want →
      (a, ep) ∈ got → ∃ ss, (a, ss) ∈ want ∧ Shows cfg ep ss := by
    intro got want h
    induction h with
    | nil => intro hm; simp at hm
    | @cons g w gs ws hgw _ ih =>
      intro hm
      rcases List.mem_cons.1 hm with rfl | hm
      · exact ⟨w.2, List.mem_cons.2 (Or.inl (Prod.ext hgw.1 rfl)), hgw.2⟩
      · obtain ⟨ss, h1, h2⟩ := ih hm
        exact ⟨ss, List.mem_cons_of_mem _ h1, h2⟩
  obtain ⟨ss, h1, h2⟩ := key h hm
  exact delivered_aligned hw hstart h1 h2

/-! ## C30: false for the code -/

/-- What one observation can change: only its own agent's ongoing episode, never the memory. -/
theorem observe_frame (cfg : ProxyCfg V) (responses : Dict Int (Response V)) (a : Int) (o : Obs V M)
    (s : Proxy V T × Dict Int (Episode V)) (hn : s.1.store.keys.Nodup) :
    (Proxy.observe cfg responses (a, o) s).1.1.table = s.1.table ∧
    (Proxy.observe cfg responses (a, o) s).1.1.store.keys.Nodup ∧
    ∀ b, b ≠ a → (Proxy.observe cfg responses (a, o) s).1.1.store.get? b = s.1.store.get? b := by
  obtain ⟨p, done⟩ := s
  unfold Proxy.observe
  simp only
  cases Proxy.obsData p a o with
  | error e => exact ⟨rfl, hn, fun _ _ => rfl⟩
  | ok data =>
    simp only
    split
    · cases Dict.get? p.store a with
      | none => exact ⟨rfl, hn, fun _ _ => rfl⟩
      | some ep =>
        exact ⟨rfl, Dict.nodup_erase hn, fun b hb => by
          simp only; rw [Dict.get?_erase hn, if_neg (Ne.symm hb)]⟩
    · cases Dict.get? responses a with
      | none => exact ⟨rfl, hn, fun _ _ => rfl⟩
      | some r =>
        exact ⟨rfl, Dict.nodup_set hn, fun b hb => by simp only; rw [Dict.get?_set, if_neg (Ne.symm hb)]⟩

/-- An observation that raises changes nothing. -/
theorem observe_error (cfg : ProxyCfg V) (responses : Dict Int (Response V)) (ao : Int × Obs V M)
    (s s' : Proxy V T × Dict Int (Episode V)) {e : Err}
    (h : Proxy.observe cfg responses ao s = (s', .error e)) : s' = s := by
  obtain ⟨p, done⟩ := s
  unfold Proxy.observe at h
  simp only at h
  cases hd : Proxy.obsData p ao.1 ao.2 with
  | error e' => rw [hd] at h; injection h with h _; exact h.symm
  | ok data =>
    rw [hd] at h
    simp only at h
    split at h
    · cases hs : Dict.get? p.store ao.1 with
      | none => rw [hs] at h; simp at h
      | some ep => rw [hs] at h; simp at h
    · cases hr : Dict.get? responses ao.1 with
      | none => rw [hr] at h; injection h with h _; exact h.symm
      | some r => rw [hr] at h; simp at h

/-- C30, what does hold: if a call raises because of the observation of agent `a`, then `a` itself and all agents
that come after it in the call keep their ongoing episodes as they were, and the memory has not been called.
(Missing for the full claim: the episodes of agents that came earlier in the call and ended there are gone, see
`C30_false`.) -/
theorem C30_later_agents_unharmed_partial {cfg : ProxyCfg V} {mem : Int → Episode V → T → Res T Unit} {c : Call V M}
    {p : Proxy V T} (hn : p.store.keys.Nodup) {pre post : List (Int × Obs V M)} {a : Int} {o : Obs V M}
    (hobs : c.observations = pre ++ (a, o) :: post) (hnd : c.observations.keys.Nodup)
    {s : Proxy V T × Dict Int (Episode V)}
    (hpre : Res.forEach pre (Proxy.observe cfg c.responses) (p, []) = (s, .ok ()))
    {s' : Proxy V T × Dict Int (Episode V)} {e : Err}
    (hraise : Proxy.observe cfg c.responses (a, o) s = (s', .error e)) :
    ∃ p', Proxy.add cfg mem c.observations c.responses p = (p', .error e) ∧ p'.table = p.table ∧
      p'.store.get? a = p.store.get? a ∧ ∀ b o', (b, o') ∈ post → p'.store.get? b = p.store.get? b := by
  have hloop : ∀ (l : List (Int × Obs V M)) (s0 s : Proxy V T × Dict Int (Episode V)),
      Res.forEach l (Proxy.observe cfg c.responses) s0 = (s, .ok ()) → s0.1.store.keys.Nodup →
      s.1.table = s0.1.table ∧ (∀ b, b ∉ Dict.keys l → s.1.store.get? b = s0.1.store.get? b) ∧
      Res.forEach (l ++ (a, o) :: post) (Proxy.observe cfg c.responses) s0
        = Res.forEach ((a, o) :: post) (Proxy.observe cfg c.responses) s := by
    intro l
    induction l with
    | nil =>
      intro s0 s h _
      simp only [Res.forEach] at h
      injection h with h _
      subst h
      exact ⟨rfl, fun _ _ => rfl, rfl⟩
    | cons x l ih =>
      intro s0 s h hn0
      simp only [Res.forEach] at h
      obtain ⟨s1, _, h1, h2⟩ := Res.andThen_eq_ok.1 h
      obtain ⟨f1, f2, f3⟩ := observe_frame cfg c.responses x.1 x.2 s0 hn0
      rw [show (x.1, x.2) = x from rfl, h1] at f1 f2 f3
      obtain ⟨g1, g2, g3⟩ := ih s1 s h2 f2
      refine ⟨by rw [g1]; exact f1, ?_, ?_⟩
      · intro b hb
        simp only [Dict.keys_cons, List.mem_cons, not_or] at hb
        rw [g2 b hb.2]; exact f3 b hb.1
      · rw [List.cons_append]
        conv_lhs => unfold Res.forEach
        rw [h1, Res.andThen_ok, g3]
  obtain ⟨t1, t2, t3⟩ := hloop pre (p, []) s hpre hn
  have := observe_error _ _ _ _ _ hraise
  subst this
  rw [hobs] at hnd
  simp only [Dict.keys_append, Dict.keys_cons] at hnd
  rw [List.nodup_append] at hnd
  refine ⟨s'.1, ?_, t1, ?_, ?_⟩
  · unfold Proxy.add
    rw [hobs, t3]
    simp only [Res.forEach, hraise, Res.andThen_error]
  · apply t2 a
    intro hm
    exact hnd.2.2 a hm a (by simp) rfl
  · intro b o' hb
    apply t2 b
    intro hm
    exact hnd.2.2 b hm b (by simp [Dict.mem_keys_of_mem hb]) rfl

namespace ExP

def cfg : ProxyCfg Nat := ⟨some 2, "actions", true, fun b => if b then 1 else 0⟩

def obs (s : EpState) (x r : Nat) : Obs Nat Unit := { rewards := [("reward", r)], state := s, arrays := [("obs", x)] }
def resp (x : Nat) : Response Nat := ⟨[("actions", x)], []⟩

/-- A memory that accepts everything. -/
def mem (_ : Int) (_ : Episode Nat) (t : Unit) : Res Unit Unit := (t, .ok ())

/-- Two interleaved agents; agent 1 ends, then agent 2 is interrupted, agent 1 starts again. -/
def calls : List (Call Nat Unit) := [
  ⟨[(1, obs .initial 10 0), (2, obs .initial 20 0)], [(1, resp 100), (2, resp 200)]⟩,
  ⟨[(2, obs .running 21 5)], [(2, resp 201)]⟩,
  ⟨[(2, obs .running 22 6), (1, obs .running 11 7)], [(1, resp 101), (2, resp 202)]⟩,
  ⟨[(1, obs .terminal 12 8)], []⟩,
  ⟨[(1, obs .initial 13 0), (2, obs .interrupted 23 9)], [(1, resp 102)]⟩]

theorem calls_wf : ∀ c ∈ calls, c.WF := by
  intro c hc
  simp only [calls, List.mem_cons, List.not_mem_nil, or_false] at hc
  rcases hc with rfl | rfl | rfl | rfl | rfl <;>
    exact Call.wf_of (by decide) (by decide) (by decide)

def final : Proxy Nat (List (Int × Episode Nat) × Unit) := (addAll cfg (recording mem) calls (Proxy.new ([], ()))).1

theorem run : addAll cfg (recording mem) calls (Proxy.new ([], ())) = (final, .ok ()) :=
  Prod.ext rfl (by decide +kernel)

end ExP

example := C27_episodes_per_agent ExP.calls ExP.calls_wf () ExP.run
example : ExP.final.table.1 = [
    (1, [("obs", [10, 11, 12]), ("actions", [100, 101]), ("rewards", [7, 8]), ("terminal", [0])]),
    (2, [("obs", [20, 21, 22, 23]), ("actions", [200, 201, 202]), ("rewards", [5, 6, 9]), ("terminal", [1])])] := by
  decide +kernel
example := C27_own_steps ExP.calls ExP.calls_wf () ExP.run (n := 0) rfl
example := C28_is_initial ExP.calls ExP.calls_wf () ExP.run
example : ExP.final.isInitial 1 = false ∧ ExP.final.isInitial 2 = true := by decide +kernel
example := C28_exactly_once ExP.calls ExP.calls_wf () ExP.run 2
example : (Proxy.add ExP.cfg (recording ExP.mem) [((5 : Int), ExP.obs .terminal 1 1)] [] ExP.final).2 = .ok () ∧
    (Proxy.add ExP.cfg (recording ExP.mem) [((5 : Int), ExP.obs .terminal 1 1)] [] ExP.final).1.table.1
      = ExP.final.table.1 := by decide +kernel

theorem ExP.wellFormed : ∀ s ∈ ExP.calls.flatMap Call.steps, WellFormed "obs" "actions" s := by
  intro s hs
  simp only [ExP.calls, Call.steps, List.flatMap_cons, List.flatMap_nil, List.map_cons, List.map_nil,
    List.append_nil, List.cons_append, List.nil_append, List.mem_cons, List.not_mem_nil, or_false] at hs
  rcases hs with rfl | rfl | rfl | rfl | rfl | rfl | rfl | rfl <;>
    exact ⟨by decide, by decide, by decide, by decide, by
      first
        | (intro h; exact absurd h (by decide))
        | (intro _; exact ⟨_, rfl, by decide, by decide, by decide, by decide, by decide⟩)⟩

theorem ExP.startsAt : ∀ i : Fin (ExP.calls.flatMap Call.steps).length,
    ((ExP.calls.flatMap Call.steps)[i].obs.state = .initial ↔
      (ongoing (ExP.calls.flatMap Call.steps)[i].agent ((ExP.calls.flatMap Call.steps).take i)).isEmpty = true ∧
        (ExP.calls.flatMap Call.steps)[i].ends = false) := by decide +kernel

theorem ExP.starts : ∀ pre s post, ExP.calls.flatMap Call.steps = pre ++ s :: post →
    (s.obs.state = .initial ↔ ongoing s.agent pre = [] ∧ s.ends = false) := by
  intro pre s post h
  have hl : pre.length < (ExP.calls.flatMap Call.steps).length := by rw [h]; simp
  have hp : pre = (ExP.calls.flatMap Call.steps).take pre.length := by rw [h]; simp
  have hs : s = (ExP.calls.flatMap Call.steps)[pre.length] := by simp [h]
  have := ExP.startsAt ⟨pre.length, hl⟩
  rw [hs]
  rw [List.isEmpty_iff] at this
  rw [← hp] at this
  exact this

example := C29_aligned ExP.calls ExP.calls_wf () ExP.run ExP.wellFormed ExP.starts (a := 2)
  (ep := [("obs", [20, 21, 22, 23]), ("actions", [200, 201, 202]), ("rewards", [5, 6, 9]), ("terminal", [1])])
  (by decide +kernel)

/-- C29, outside the protocol: an episode that starts with a running observation is accepted and then has one
reward more than actions. -/
theorem C29_running_start_misaligns :
    ∃ p, addAll { ExP.cfg with minLength := none } (recording ExP.mem)
        [(⟨[(1, ExP.obs .running 10 3)], [(1, ExP.resp 100)]⟩ : Call Nat Unit),
          ⟨[(1, ExP.obs .terminal 11 4)], []⟩] (Proxy.new ([], ())) = (p, .ok ()) ∧
      p.table.1 = [(1, [("obs", [10, 11]), ("rewards", [3, 4]), ("actions", [100]), ("terminal", [0])])] :=
  ⟨_, Prod.ext rfl (by decide +kernel), by decide +kernel⟩

/-- C30 does not hold: agent 1's episode ends in a call that raises because agent 2 got no response. The episode
has not reached the memory, and when the call is repeated with the response, it still does not. -/
theorem C30_false : ∃ (p0 p1 p2 : Proxy Nat (List (Int × Episode Nat) × Unit)),
    addAll ExP.cfg (recording ExP.mem) (ExP.calls.take 3) (Proxy.new ([], ())) = (p0, .ok ()) ∧
    p0.isInitial 1 = false ∧
    Proxy.add ExP.cfg (recording ExP.mem) [((1 : Int), ExP.obs .terminal 12 8), (2, ExP.obs .running 23 9)] [] p0
      = (p1, .error .assertionError) ∧
    p1.table.1 = [] ∧
    Proxy.add ExP.cfg (recording ExP.mem) [((1 : Int), ExP.obs .terminal 12 8), (2, ExP.obs .running 23 9)]
      [(2, ExP.resp 203)] p1 = (p2, .ok ()) ∧
    p2.table.1 = [] ∧ p2.isInitial 1 = true :=
  ⟨_, _, _, Prod.ext rfl (by decide +kernel), by decide +kernel, Prod.ext rfl (by decide +kernel), by decide +kernel,
    Prod.ext rfl (by decide +kernel), by decide +kernel, by decide +kernel⟩

/-- C30: an exception from the memory loses the other episodes that ended in the same call, too. -/
theorem C30_false_memory_raises : ∃ (p0 p1 p2 : Proxy Nat (List (Int × Episode Nat) × Unit)),
    addAll ExP.cfg (recording fun _ _ t => (t, .error .valueError)) (ExP.calls.take 3) (Proxy.new ([], ())) = (p0, .ok ()) ∧
    Proxy.add ExP.cfg (recording fun _ _ t => (t, .error .valueError))
      [((1 : Int), ExP.obs .terminal 12 8), (2, ExP.obs .terminal 23 9)] [] p0 = (p1, .error .valueError) ∧
    Proxy.add ExP.cfg (recording ExP.mem)
      [((1 : Int), ExP.obs .terminal 12 8), (2, ExP.obs .terminal 23 9)] [] p1 = (p2, .ok ()) ∧
    ∀ x ∈ p2.table.1, x.1 ≠ 2 :=
  ⟨_, _, _, Prod.ext rfl (by decide +kernel), Prod.ext rfl (by decide +kernel),
    Prod.ext rfl (by decide +kernel), by decide +kernel⟩

example : ∃ p', Proxy.add ExP.cfg (recording ExP.mem)
    [((7 : Int), ExP.obs .running 12 8), (1, ExP.obs .terminal 23 9)] [] ExP.final = (p', .error .assertionError) ∧
    p'.table = ExP.final.table ∧ p'.store.get? 7 = ExP.final.store.get? 7 ∧
    ∀ b o', (b, o') ∈ [((1 : Int), ExP.obs .terminal 23 9)] → p'.store.get? b = ExP.final.store.get? b :=
  C30_later_agents_unharmed_partial
    (c := ⟨[((7 : Int), ExP.obs .running 12 8), (1, ExP.obs .terminal 23 9)], []⟩) (pre := [])
    (by decide +kernel) rfl (by decide) rfl (s' := (ExP.final, [])) rfl

end Verif.Props
