import Verif.Model.Genrl
import Verif.Props.EndToEnd

/-!
# C95, C96: generative models in front of the policy
-/

namespace Verif

namespace Genrl

open Spec Props

variable {V : Type u} {M : Type v} {T : Type w}

/-! ## C96 -/

/-- A step whose action is replaced by its code. Other outputs of the agent are left out. -/
def latent (e : EncCfg V) (s : Step V M) : Step V M :=
  { s with resp := s.resp.map fun r =>
      match r.listData.get? e.actionKey, s.obs.arrays.get? e.inputKey with
      | some v, some x => if e.isEmpty v then r else ⟨[(e.actionKey, e.encoder v x)], []⟩
      | _, _ => r }

@[simp] theorem latent_agent (e : EncCfg V) (s : Step V M) : (latent e s).agent = s.agent := rfl
@[simp] theorem latent_obs (e : EncCfg V) (s : Step V M) : (latent e s).obs = s.obs := rfl
@[simp] theorem latent_ends (e : EncCfg V) (s : Step V M) : (latent e s).ends = s.ends := rfl

theorem encode_ok {e : EncCfg V} {observations : Dict Int (Obs V M)} {a : Int} {r r' : Response V} {o : Obs V M}
    (h : encode e observations (a, r) = .ok r') (ho : observations.get? a = some o) :
    (latent e (⟨a, o, some r⟩ : Step V M)).resp = some r' := by
  unfold encode at h
  unfold latent
  simp only [Option.map_some]
  cases h1 : r.listData.get? e.actionKey with
  | none => simp only [h1] at h; cases h
  | some v =>
    simp only [h1] at h
    cases h2 : o.arrays.get? e.inputKey with
    | none =>
      by_cases hv : e.isEmpty v = true
      · simp only [hv, if_true] at h; cases h; rfl
      · simp only [hv, if_false, ho, h2, Bool.false_eq_true] at h; cases h
    | some x =>
      by_cases hv : e.isEmpty v = true
      · simp only [hv, if_true] at h; cases h; simp only [hv, if_true]
      · simp only [hv, if_false, ho, h2, Bool.false_eq_true] at h; cases h; simp only [hv, if_false, Bool.false_eq_true]

theorem encodeAll_ok {e : EncCfg V} {observations : Dict Int (Obs V M)} :
    ∀ (rs : Dict Int (Response V)) (acc : Dict Int (Response V)) {out : Dict Int (Response V)},
      encodeAll e observations rs acc = .ok out → rs.keys.Nodup → (∀ a ∈ rs.keys, a ∉ acc.keys) → ∀ a,
      (∀ r, rs.get? a = some r → ∃ r', encode e observations (a, r) = .ok r' ∧ out.get? a = some r') ∧
      (rs.get? a = none → out.get? a = acc.get? a)
  | [], acc, out, h, _, _, a => by
    rw [encodeAll] at h
    cases h
    exact ⟨fun r hr => by simp [Dict.get?] at hr, fun _ => rfl⟩
  | (b, r) :: rest, acc, out, h, hn, hd, a => by
    rw [encodeAll] at h
    simp only [Dict.keys_cons, List.nodup_cons] at hn
    cases he : encode e observations (b, r) with
    | error x => simp only [he] at h; cases h
    | ok r' =>
      simp only [he] at h
      obtain ⟨h1, h2⟩ := encodeAll_ok rest _ h hn.2 (by
        intro c hc hm
        rw [Dict.mem_keys_set] at hm
        rcases hm with hm | hm
        · subst hm; exact hn.1 hc
        · exact hd c (by simp [hc]) hm) a
      by_cases hba : b = a
      · subst hba
        refine ⟨fun r0 hr => ?_, fun hr => ?_⟩
        · simp only [Dict.get?, if_true, Option.some.injEq] at hr
          subst hr
          refine ⟨r', he, ?_⟩
          rw [h2 (Dict.get?_none_iff.2 hn.1)]
          simp
        · simp [Dict.get?] at hr
      · simp only [Dict.get?, if_neg hba]
        refine ⟨h1, fun hr => ?_⟩
        rw [h2 hr, Dict.get?_set_ne hba]

/-- A call that is passed on: the responses are the codes. -/
theorem encodeAll_steps {e : EncCfg V} {c : Call V M} {out : Dict Int (Response V)} (hw : c.WF) (hr : c.responses.keys.Nodup)
    (h : encodeAll e c.observations c.responses [] = .ok out) :
    (⟨c.observations, out⟩ : Call V M).steps = c.steps.map (latent e) := by
  unfold Call.steps
  rw [List.map_map]
  refine List.map_congr_left fun ao hao => ?_
  obtain ⟨a, o⟩ := ao
  obtain ⟨h1, h2⟩ := encodeAll_ok c.responses [] h hr (by simp) a
  have ho := Dict.get?_of_mem hw.agents hao
  simp only [Function.comp]
  cases hg : c.responses.get? a with
  | none =>
    simp only [h2 hg, Dict.get?]
    rfl
  | some r =>
    obtain ⟨r', he, hr'⟩ := h1 r hg
    rw [hr']
    have := encode_ok he ho
    unfold latent at this ⊢
    simp only at this ⊢
    rw [this]

theorem encode_nodup {e : EncCfg V} {observations : Dict Int (Obs V M)} {a : Int} {r r' : Response V}
    (h : encode e observations (a, r) = .ok r') (hr : r.listData.keys.Nodup ∧ r.scalarData.keys.Nodup) :
    r'.listData.keys.Nodup ∧ r'.scalarData.keys.Nodup := by
  unfold encode at h
  split at h
  · cases h
  · split at h
    · cases h; exact hr
    · split at h
      · cases h
      · split at h
        · cases h
        · cases h; exact ⟨by simp, by simp⟩

theorem encodeAll_mem {e : EncCfg V} {observations : Dict Int (Obs V M)} {P : Response V → Prop}
    (hP : ∀ a r r', P r → encode e observations (a, r) = .ok r' → P r') :
    ∀ (rs : List (Int × Response V)) (acc : Dict Int (Response V)) {out : Dict Int (Response V)},
      encodeAll e observations rs acc = .ok out → (∀ x ∈ rs, P x.2) → (∀ x ∈ acc, P x.2) → acc.keys.Nodup →
      (∀ x ∈ out, P x.2) ∧ out.keys.Nodup
  | [], acc, out, h, _, ha, hn => by rw [encodeAll] at h; cases h; exact ⟨ha, hn⟩
  | (b, r) :: rest, acc, out, h, hr, ha, hn => by
    rw [encodeAll] at h
    cases he : encode e observations (b, r) with
    | error x => simp only [he] at h; cases h
    | ok r' =>
      simp only [he] at h
      refine encodeAll_mem hP rest _ h (fun x hx => hr x (by simp [hx])) ?_ (Dict.nodup_set hn)
      rintro ⟨k, v⟩ hx
      have hg := Dict.get?_of_mem (Dict.nodup_set hn) hx
      by_cases hbk : b = k
      · subst hbk
        rw [Dict.get?_set_self, Option.some.injEq] at hg
        subst hg
        exact hP b r r' (hr (b, r) (by simp)) he
      · rw [Dict.get?_set_ne hbk] at hg
        exact ha _ (Dict.mem_of_get? hg)

theorem encodeAll_wf {e : EncCfg V} {c : Call V M} {out : Dict Int (Response V)} (hw : c.WF)
    (h : encodeAll e c.observations c.responses [] = .ok out) : (⟨c.observations, out⟩ : Call V M).WF := by
  refine ⟨hw.agents, hw.arrays, fun a r har => ?_⟩
  exact (encodeAll_mem (P := fun r => r.listData.keys.Nodup ∧ r.scalarData.keys.Nodup)
    (fun _ _ _ hr he => encode_nodup he hr) c.responses [] h (fun x hx => hw.resp x.1 x.2 hx) (by simp) (by simp)).1 (a, r) har

/-- A stream of `add` calls; it stops at the first one that raises. -/
def encAddAll (e : EncCfg V) (cfg : ProxyCfg V) (mem : Int → Episode V → T → Res T Unit) (calls : List (Call V M))
    (p : Proxy V T) : Res (Proxy V T) Unit :=
  Res.forEach calls (fun c => add e cfg mem c.observations c.responses) p

theorem encAddAll_recording {e : EncCfg V} {cfg : ProxyCfg V} {mem : Int → Episode V → T → Res T Unit} (calls : List (Call V M))
    (hw : ∀ c ∈ calls, c.WF ∧ c.responses.keys.Nodup) {p p' : Proxy V (List (Int × Episode V) × T)} {h : List (Step V M)}
    (hinv : ProxyInv cfg p h) (hr : encAddAll e cfg (recording mem) calls p = (p', .ok ())) :
    ∃ new, p'.table.1 = p.table.1 ++ new ∧ Matches cfg new (delivered cfg h ((calls.flatMap Call.steps).map (latent e))) := by
  unfold encAddAll at hr
  induction calls generalizing p h with
  | nil =>
    simp only [Res.forEach] at hr
    injection hr with hr _
    subst hr
    exact ⟨[], by simp, List.Forall₂.nil⟩
  | cons c calls ih =>
    simp only [Res.forEach] at hr
    obtain ⟨p1, _, h1, h2⟩ := Res.andThen_eq_ok.1 hr
    obtain ⟨hwc, hrc⟩ := hw c (by simp)
    unfold add at h1
    cases hout : encodeAll e c.observations c.responses [] with
    | error err => simp only [hout] at h1; cases h1
    | ok out =>
      simp only [hout] at h1
      obtain ⟨i1, n1, e1, m1⟩ := add_recording (c := ⟨c.observations, out⟩) (encodeAll_wf hwc hout) hinv h1
      rw [encodeAll_steps hwc hrc hout] at i1 m1
      obtain ⟨n2, e2, m2⟩ := ih (fun c hc => hw c (by simp [hc])) i1 h2
      refine ⟨n1 ++ n2, by rw [e2, e1, List.append_assoc], ?_⟩
      rw [List.flatMap_cons, List.map_append, delivered_append]
      exact List.rel_append m1 m2

/-- **C96** The memory behind the encoder gets exactly the agents' ended episodes, with each action replaced by its code. -/
theorem C96_partial {e : EncCfg V} {cfg : ProxyCfg V} {mem : Int → Episode V → T → Res T Unit} (calls : List (Call V M))
    (hw : ∀ c ∈ calls, c.WF ∧ c.responses.keys.Nodup) (t0 : T) {p : Proxy V (List (Int × Episode V) × T)}
    (hr : encAddAll e cfg (recording mem) calls (Proxy.new ([], t0)) = (p, .ok ())) :
    Matches cfg p.table.1 (delivered cfg [] ((calls.flatMap Call.steps).map (latent e))) := by
  obtain ⟨new, h1, h2⟩ := encAddAll_recording calls hw (inv_new cfg ([], t0)) hr
  rw [h1]
  simpa [Proxy.new] using h2

/-- What a step contributes to the columns of the memory, when the agent answered with a non-empty action: the code, computed from
this action and this observation, and the observation and reward as without an encoder. -/
theorem C96_columns {e : EncCfg V} {s : Step V M} {r : Response V} {v x : V} (hend : s.ends = false) (hs : s.resp = some r)
    (hv : r.listData.get? e.actionKey = some v) (hne : e.isEmpty v = false) (hx : s.obs.arrays.get? e.inputKey = some x)
    (ut : Bool) (fl : Bool → V) :
    contributes ut fl e.actionKey (latent e s) = some (e.encoder v x) ∧
      ∀ k, k ≠ e.actionKey → contributes ut fl k (latent e s) =
        if k = "rewards" && s.obs.state = .running then s.obs.rewards.get? "reward" else s.obs.arrays.get? k := by
  have h1 : (latent e s).resp = some ⟨[(e.actionKey, e.encoder v x)], []⟩ := by
    unfold latent
    simp only [hs, Option.map_some, hv, hx, hne, if_false, Bool.false_eq_true]
  constructor
  · simp [contributes, hend, h1, Dict.get?]
  · intro k hk
    have hk' : ¬ e.actionKey = k := fun h => hk h.symm
    by_cases hrun : s.obs.state = .running <;> simp [contributes, hend, h1, Dict.get?, hk', hrun]

/-! ### Up to the batch -/

/-- The environment of an agent that acts: like `Environment`, but the agents may have other outputs. -/
structure RawStep (e : EncCfg V) (keys : List String) (s : Step V M) : Prop where
  features : ∀ k, k ∈ s.obs.arrays.keys ↔ k ∈ keys
  reward : s.obs.state ≠ .initial → "reward" ∈ s.obs.rewards.keys
  action : s.ends = false → ∃ r v, s.resp = some r ∧ r.listData.get? "actions" = some v ∧ e.isEmpty v = false

structure RawEnvironment (e : EncCfg V) (keys : List String) (h : List (Step V M)) : Prop where
  steps : ∀ s ∈ h, RawStep e keys s
  starts : ∀ pre s post, h = pre ++ s :: post → (s.obs.state = .initial ↔ ongoing s.agent pre = [] ∧ s.ends = false)

/-- `Life` with the proxy that encodes. -/
inductive EncLife (e : EncCfg V) (cfg : ProxyCfg V) (p0 : Proxy V (Table V)) :
    List (Event V M) → Proxy V (Table V) → Prop where
  | nil : EncLife e cfg p0 [] p0
  | add {es p p' c draws} : EncLife e cfg p0 es p → c.WF → c.responses.keys.Nodup →
      add e cfg (fun a ep t => Table.addSequence (draws a) a ep t) c.observations c.responses p = (p', .ok ()) →
      EncLife e cfg p0 (es ++ [.add c draws]) p'
  | resize {es p t' n} : EncLife e cfg p0 es p → Table.resize p.table n = (t', .ok ()) →
      EncLife e cfg p0 (es ++ [.resize n]) { p with table := t' }
  | sample {es p t' count n c r junk x} : EncLife e cfg p0 es p → Table.sample count n c r junk p.table = (t', x) →
      x ≠ .error .overflowError → EncLife e cfg p0 (es ++ [.sample count n c r junk]) { p with table := t' }

theorem EncLife.life {e : EncCfg V} {cfg : ProxyCfg V} {p0 p : Proxy V (Table V)} {es : List (Event V M)}
    (h : EncLife e cfg p0 es p) : ∃ es', Life cfg p0 es' p ∧ es'.flatMap Event.steps = (es.flatMap Event.steps).map (latent e) := by
  induction h with
  | nil => exact ⟨[], .nil, rfl⟩
  | @add es p p' c draws _ hw hn hr ih =>
    obtain ⟨es', h1, h2⟩ := ih
    unfold Genrl.add at hr
    cases hout : encodeAll e c.observations c.responses [] with
    | error err => simp only [hout] at hr; cases hr
    | ok out =>
      simp only [hout] at hr
      refine ⟨es' ++ [.add ⟨c.observations, out⟩ draws], .add h1 (encodeAll_wf hw hout) hr, ?_⟩
      rw [List.flatMap_append, List.flatMap_append, List.map_append, h2]
      simp only [List.flatMap_cons, List.flatMap_nil, List.append_nil, Event.steps, encodeAll_steps hw hn hout]
  | resize _ hr ih =>
    obtain ⟨es', h1, h2⟩ := ih
    exact ⟨_, .resize h1 hr, by simp [h2, Event.steps]⟩
  | sample _ hr hx ih =>
    obtain ⟨es', h1, h2⟩ := ih
    exact ⟨_, .sample h1 hr hx, by simp [h2, Event.steps]⟩

theorem ongoing_latent (e : EncCfg V) (a : Int) (h : List (Step V M)) :
    ongoing a (h.map (latent e)) = (ongoing a h).map (latent e) := by
  unfold ongoing
  rw [List.filter_map, ← List.map_reverse, List.takeWhile_map, ← List.map_reverse]
  rfl

theorem environment_latent {e : EncCfg V} {keys : List String} {h : List (Step V M)} (hE : RawEnvironment e keys h)
    (hk : e.actionKey = "actions") (hin : e.inputKey ∈ keys) : Environment keys (h.map (latent e)) := by
  constructor
  · intro s' hs'
    obtain ⟨s, hs, rfl⟩ := List.mem_map.1 hs'
    obtain ⟨h1, h2, h3⟩ := hE.steps s hs
    refine ⟨h1, h2, fun hend => ?_⟩
    obtain ⟨r, v, e1, e2, e3⟩ := h3 hend
    obtain ⟨x, hx⟩ := Dict.get?_isSome_of_mem ((h1 e.inputKey).2 hin)
    refine ⟨⟨[("actions", e.encoder v x)], []⟩, e.encoder v x, ?_, rfl, rfl⟩
    unfold latent
    simp only [e1, Option.map_some, hk, e2, hx, e3, if_false, Bool.false_eq_true]
  · intro pre s post heq
    obtain ⟨pre', rest, e1, e2, e3⟩ := List.map_eq_append_iff.1 heq
    obtain ⟨s', post', e4, e5, e6⟩ := List.map_eq_cons_iff.1 e3
    subst e2 e5 e4
    rw [latent_agent, latent_obs, latent_ends, ongoing_latent, List.map_eq_nil_iff]
    exact hE.starts pre' s' post' e1

theorem consecutive_latent {e : EncCfg V} {h : List (Step V M)} {s s' : Step V M}
    (hc : Consecutive (h.map (latent e)) s s') : ∃ t t', s = latent e t ∧ s' = latent e t' ∧ Consecutive h t t' := by
  obtain ⟨pre, mid, post, heq, h1, h2, h3⟩ := hc
  obtain ⟨pre', rest, e1, e2, e3⟩ := List.map_eq_append_iff.1 heq
  obtain ⟨t, rest', e4, e5, e6⟩ := List.map_eq_cons_iff.1 e3
  obtain ⟨mid', rest2, e7, e8, e9⟩ := List.map_eq_append_iff.1 e6
  obtain ⟨t', post', e10, e11, e12⟩ := List.map_eq_cons_iff.1 e9
  subst e5 e11 e8
  refine ⟨t, t', rfl, rfl, pre', mid', post', by rw [e1, e4, e7, e10], by simpa using h1, by simpa using h2, ?_⟩
  intro x hx
  simpa using h3 (latent e x) (List.mem_map_of_mem hx)

/-- **C96** End to end: in a batch that is sampled from the memory behind the encoder, each row is a transition of one agent, whose
action is the code of the action that the agent answered, computed with the observation of the same row. -/
theorem C96_transitions {e : EncCfg V} {cfg : ProxyCfg V} {keys : List String} {ut : Bool} {maxlen : Int} {t0 : Table V}
    (hnames : ((Builder.columns false ut keys).map Column.name).Nodup)
    (hut : cfg.useTerminal = ut) (hlk : cfg.lengthKey = "actions") (hak : e.actionKey = "actions") (hin : e.inputKey ∈ keys)
    (hc : Created (Builder.columns false ut keys) maxlen "actions" t0) {es : List (Event V M)} {p : Proxy V (Table V)}
    (hl : EncLife e cfg (Proxy.new t0) es p) (hE : RawEnvironment e keys (es.flatMap Event.steps))
    (hids : ((delivered cfg [] ((es.flatMap Event.steps).map (latent e))).map fun x => Table.wrapId x.1).Nodup) {count n : Nat}
    (hn : 0 < n) (hmin : n = 1 ∨ ∃ m, cfg.minLength = some m ∧ (n : Int) ≤ m) {c r : Nat → Nat}
    {junk : String → Nat → Cell V} {one : V → Bool} {t' : Table V} {b : Batch V}
    (hs : Table.sampleAdapted (Builder.adaptors one ut keys) count n c r junk p.table = (t', .ok b)) :
    ∃ (o x : Dict String (List (Cell V))) (act rew : List (Cell V)),
      b.get? "observation" = some (.obs o) ∧ b.get? "next_observation" = some (.obs x) ∧
      b.get? "actions" = some (.col act) ∧ b.get? "rewards" = some (.col rew) ∧
      act.length = count * n ∧ rew.length = count * n ∧
      ∀ k, k < count → ∀ i, i < n → ∃ s s', Consecutive (es.flatMap Event.steps) s s' ∧
          (∀ f ∈ keys, ∃ col col' v v', o.get? f = some col ∧ x.get? f = some col' ∧
            s.obs.arrays.get? f = some v ∧ s'.obs.arrays.get? f = some v' ∧
            col[k * n + i]? = some (.row v) ∧ col'[k * n + i]? = some (.row v')) ∧
          (∃ v w, s.action = some v ∧ s.obs.arrays.get? e.inputKey = some w ∧ act[k * n + i]? = some (.row (e.encoder v w))) ∧
          (∃ v, s'.obs.rewards.get? "reward" = some v ∧ rew[k * n + i]? = some (.row v)) := by
  obtain ⟨es', hl', hst⟩ := hl.life
  rw [← hst] at hids
  have hE' : Environment keys (es'.flatMap Event.steps) := by
    rw [hst]
    exact environment_latent hE hak hin
  obtain ⟨o, x, act, rew, dn, mk, h1, h2, h3, h4, _, _, _, _, h5, h6, _, _, h7⟩ :=
    C77_transitions hnames hut hlk hc hl' hE' hids hn hmin hs
  refine ⟨o, x, act, rew, h1, h2, h3, h4, h5, h6, ?_⟩
  intro k hk i hi
  obtain ⟨run, hlen, -, hrun⟩ := h7 k hk
  have hg1 := List.getElem?_eq_getElem (show i < run.length by omega)
  have hg2 := List.getElem?_eq_getElem (show i + 1 < run.length by omega)
  obtain ⟨g1, g2, ⟨v, g3, g4⟩, g5, _⟩ := hrun i _ _ hg1 hg2
  rw [hst] at g1
  obtain ⟨t, u, e1, e2, e3⟩ := consecutive_latent g1
  rw [e1, e2] at g2
  rw [e2] at g5
  rw [e1] at g3
  refine ⟨t, u, e3, ?_, ?_, g5⟩
  · intro f hf
    obtain ⟨col, col', v, v', a1, a2, _, _, a3, a4, a5, a6⟩ := g2 f hf
    exact ⟨col, col', v, v', a1, a2, a3, a4, a5, a6⟩
  · obtain ⟨pre, mid, post, heq, hend, _, _⟩ := e3
    obtain ⟨hf, _, hact⟩ := hE.steps t (by rw [heq]; simp)
    obtain ⟨r, v0, b1, b2, b3⟩ := hact hend
    obtain ⟨w, hw⟩ := Dict.get?_isSome_of_mem ((hf e.inputKey).2 hin)
    refine ⟨v0, w, by simp [Step.action, b1, b2], hw, ?_⟩
    have : (latent e t).action = some (e.encoder v0 w) := by
      unfold Step.action latent
      simp only [b1, Option.map_some, hak, b2, hw, b3, if_false, Bool.false_eq_true, Option.bind_some, Dict.get?, if_true]
    rw [this, Option.some.injEq] at g3
    rw [g4, ← g3]

/-- **C96** The encoder changes only the actions: every other column of the memory is as without it. -/
def C96_claim : Prop :=
  ∀ (e : EncCfg Nat) (cfg : ProxyCfg Nat) (calls : List (Call Nat Unit)),
    (∀ c ∈ calls, c.WF ∧ c.responses.keys.Nodup) →
    ∀ p p' : Proxy Nat (List (Int × Episode Nat) × Unit),
      encAddAll e cfg (recording fun _ _ t => (t, .ok ())) calls (Proxy.new ([], ())) = (p, .ok ()) →
      addAll cfg (recording fun _ _ t => (t, .ok ())) calls (Proxy.new ([], ())) = (p', .ok ()) →
      ∀ k, k ≠ e.actionKey → p.table.1.map (fun x => (x.2.touch k).2) = p'.table.1.map (fun x => (x.2.touch k).2)

namespace Ex

def e : EncCfg Nat := ⟨fun a o => 100 * a + o, fun a => decide (a = 0), "pos", "actions"⟩
def obs (st : EpState) (v r : Nat) : Obs Nat Unit := ⟨[("reward", r)], st, [("pos", v)], none⟩
def resp (a l : Nat) : Response Nat := ⟨[("actions", a)], [("log_prob", l)]⟩
def cfg : ProxyCfg Nat := ⟨none, "actions", false, fun b => if b then 1 else 0⟩
def calls : List (Call Nat Unit) :=
  [⟨[(1, obs .initial 10 0)], [(1, resp 3 7)]⟩, ⟨[(1, obs .running 11 5)], [(1, resp 4 8)]⟩, ⟨[(1, obs .terminal 12 6)], []⟩]

theorem wf : ∀ c ∈ calls, c.WF ∧ c.responses.keys.Nodup := by
  intro c hc
  simp only [calls, List.mem_cons, List.not_mem_nil, or_false] at hc
  rcases hc with rfl | rfl | rfl <;> exact ⟨Call.wf_of (by decide +kernel) (by decide +kernel) (by decide +kernel), by decide +kernel⟩

example : (encAddAll e cfg (recording fun _ _ (t : Unit) => (t, .ok ())) calls (Proxy.new ([], ()))).1.table.1 =
    [(1, [("pos", [10, 11, 12]), ("actions", [310, 411]), ("rewards", [5, 6])])] := by decide +kernel
example := C96_partial (e := e) (cfg := cfg) (mem := fun _ _ (t : Unit) => (t, .ok ())) calls wf () (Prod.ext rfl (by decide +kernel))
example := C96_columns (e := e) (s := ⟨1, obs .running 11 5, some (resp 4 8)⟩) (r := resp 4 8) (v := 4) (x := 11)
  (by decide +kernel) rfl (by decide +kernel) (by decide +kernel) (by decide +kernel) true fun _ => 0

/-! The events of `ExE`, through the encoder -/

def step (c : Call Nat Unit) (p : Proxy Nat (Table Nat)) : Proxy Nat (Table Nat) :=
  (add e ExE.cfg (fun a ep t => Table.addSequence [] a ep t) c.observations c.responses p).1

def final : Proxy Nat (Table Nat) := step ExE.c3 (step ExE.c2 (step ExE.c1 (Proxy.new ExE.t0)))

theorem life : EncLife e ExE.cfg (Proxy.new ExE.t0) ExE.events final :=
  EncLife.add (es := [_, _]) (EncLife.add (es := [_]) (EncLife.add (es := []) EncLife.nil
    (Call.wf_of (by decide) (by decide) (by decide)) (by decide) (Prod.ext rfl (by decide +kernel)))
    (Call.wf_of (by decide) (by decide) (by decide)) (by decide) (Prod.ext rfl (by decide +kernel)))
    (Call.wf_of (by decide) (by decide) (by decide)) (by decide) (Prod.ext rfl (by decide +kernel))

theorem environment : RawEnvironment e ["pos"] ExE.stream := by
  refine ⟨fun s hs => ?_, ExE.environment.starts⟩
  obtain ⟨h1, h2, h3⟩ := ExE.steps_ok s hs
  refine ⟨h1, h2, fun hend => ?_⟩
  simp only [ExE.stream, ExE.events, Event.steps, Call.steps, ExE.c1, ExE.c2, ExE.c3, List.flatMap_cons, List.flatMap_nil,
    List.map_cons, List.map_nil, List.append_nil, List.cons_append, List.nil_append, List.mem_cons, List.not_mem_nil,
    or_false] at hs
  rcases hs with rfl | rfl | rfl | rfl | rfl
  · exact ⟨ExE.resp 100, 100, by decide, by decide, by decide⟩
  · exact ⟨ExE.resp 200, 200, by decide, by decide, by decide⟩
  · exact ⟨ExE.resp 101, 101, by decide, by decide, by decide⟩
  · simp [Step.ends, ExE.obs] at hend
  · simp [Step.ends, ExE.obs] at hend

example : ((Table.sampleAdapted (Builder.adaptors (· == 1) true ["pos"]) 2 1 id (fun i => i / 2) (fun _ _ => .bit false)
      final.table).2.toOption.bind fun b => b.get? "actions") = some (.col [.row 20020, .row 10010]) := by decide +kernel

example {b : Batch Nat} {t' : Table Nat} {count : Nat} {c r : Nat → Nat} {junk : String → Nat → Cell Nat}
    (hs : Table.sampleAdapted (Builder.adaptors (· == 1) true ["pos"]) count 1 c r junk final.table = (t', .ok b)) :=
  C96_transitions ExE.names rfl rfl rfl (by decide) ExE.created life environment (by decide +kernel) (by decide) (Or.inl rfl) hs

end Ex

/-- **C96 is false** The agent's other outputs do not reach the memory. -/
theorem C96_false : ¬ C96_claim := fun h => by
  have := h Ex.e Ex.cfg Ex.calls Ex.wf _ _ (Prod.ext rfl (by decide +kernel)) (Prod.ext rfl (by decide +kernel)) "log_prob"
    (by decide +kernel)
  exact absurd this (by decide +kernel)

/-! ## C95: loading a state -/

section Load

variable {S : Type w} [DecidableEq S]

/-- **C95** Loading overwrites exactly the parameters that the state names, and fails without effect if there is none. -/
theorem C95_partial (shape : V → S) (strict : Bool) (state params : Dict String V) (hs : state.keys.Nodup) (hp : params.keys.Nodup)
    (hshape : ∀ k v w, params.get? k = some v → state.get? k = some w → shape w = shape v) :
    ((∀ k ∈ state.keys, k ∉ params.keys) → load shape strict state params = (params, .error .assertionError)) ∧
    ((∃ k ∈ state.keys, k ∈ params.keys) → ∃ params', load shape strict state params = (params', .ok ()) ∧
      params'.keys = params.keys ∧ ∀ k, k ∈ params.keys →
        params'.get? k = if k ∈ state.keys then state.get? k else params.get? k) := by
  have hfilter : ∀ k, (Dict.get? (state.filter fun kv => params.contains kv.1) k) =
      if k ∈ params.keys then state.get? k else none := by
    intro k
    clear hs hshape
    induction state with
    | nil => simp [Dict.get?]
    | cons kv state ih =>
      obtain ⟨j, v⟩ := kv
      rw [List.filter_cons]
      by_cases hj : params.contains j = true
      · simp only [hj, if_true, Dict.get?, ih]
        by_cases hjk : j = k
        · subst hjk
          simp [Dict.contains_iff.1 hj]
        · simp only [if_neg hjk]
      · simp only [hj, if_false, Dict.get?, ih, Bool.false_eq_true]
        by_cases hjk : j = k
        · subst hjk
          have : j ∉ params.keys := fun hc => hj (Dict.contains_iff.2 hc)
          simp [this]
        · simp only [if_neg hjk]
  have hnodup : (Dict.keys (state.filter fun kv => params.contains kv.1)).Nodup := by
    unfold Dict.keys at hs ⊢
    exact hs.sublist (List.filter_sublist.map _)
  constructor
  · intro h
    have : (state.filter fun kv => params.contains kv.1) = [] := by
      rw [List.filter_eq_nil_iff]
      intro kv hkv hc
      exact h kv.1 (List.mem_map_of_mem hkv) (Dict.contains_iff.1 hc)
    unfold load
    simp only [this, List.isEmpty_nil, if_true]
  · rintro ⟨k0, h1, h2⟩
    have hne : (state.filter fun kv => params.contains kv.1).isEmpty = false := by
      rw [List.isEmpty_eq_false_iff]
      intro hc
      have := hfilter k0
      rw [hc, if_pos h2] at this
      obtain ⟨v, hv⟩ := Dict.get?_isSome_of_mem h1
      rw [hv] at this
      simp [Dict.get?] at this
    have hget : ∀ k, k ∈ params.keys → (params.update (state.filter fun kv => params.contains kv.1)).get? k =
        if k ∈ state.keys then state.get? k else params.get? k := by
      intro k hk
      rw [Dict.get?_update _ _ hnodup, hfilter, if_pos hk]
      by_cases hks : k ∈ state.keys
      · obtain ⟨v, hv⟩ := Dict.get?_isSome_of_mem hks
        simp [hv, hks]
      · rw [Dict.get?_none_iff.2 hks, if_neg hks]
    have hvals : ∀ kv ∈ params, ∃ v, (params.update (state.filter fun kv => params.contains kv.1)).get? kv.1 = some v ∧
        shape v = shape kv.2 ∧ (if kv.1 ∈ state.keys then state.get? kv.1 else params.get? kv.1) = some v := by
      rintro ⟨k, v⟩ hkv
      have hk := Dict.mem_keys_of_mem hkv
      have hv := Dict.get?_of_mem hp hkv
      rw [hget k hk]
      by_cases hks : k ∈ state.keys
      · obtain ⟨w, hw⟩ := Dict.get?_isSome_of_mem hks
        simp only [if_pos hks]
        exact ⟨w, hw, hshape k v w hv hw, hw⟩
      · simp only [if_neg hks]
        exact ⟨v, hv, rfl, hv⟩
    have hkeys : ∀ k, k ∈ (params.update (state.filter fun kv => params.contains kv.1)).keys → k ∈ params.keys := by
      intro k hk
      by_contra hc
      have := Dict.get?_update params (state.filter fun kv => params.contains kv.1) hnodup k
      rw [hfilter, if_neg hc, Dict.get?_none_iff.2 hc] at this
      exact Dict.get?_none_iff.1 this hk
    refine ⟨(torchLoad shape true (params.update (state.filter fun kv => params.contains kv.1)) params).1, ?_, ?_, ?_⟩
    · unfold load
      simp only [hne, if_false, Bool.false_eq_true]
      refine Prod.ext rfl ?_
      unfold torchLoad
      simp only
      rw [if_pos]
      rw [Bool.and_eq_true, List.all_eq_true]
      refine ⟨fun kv hkv => ?_, ?_⟩
      · obtain ⟨v, h3, h4, _⟩ := hvals kv hkv
        simp [h3, h4]
      · simp only [Bool.not_true, Bool.false_or, List.all_eq_true]
        intro kv hkv
        exact Dict.contains_iff.2 (hkeys _ (Dict.mem_keys_of_mem hkv))
    · unfold torchLoad Dict.keys
      rw [List.map_map]
      rfl
    · intro k hk
      obtain ⟨v, hv⟩ := Dict.get?_isSome_of_mem hk
      have hmem := Dict.mem_of_get? hv
      obtain ⟨w, h3, h4, h5⟩ := hvals _ hmem
      have hn' : (Dict.keys (params.map fun kv => (kv.1, match (params.update (state.filter fun kv => params.contains kv.1)).get? kv.1 with
          | some v => if shape v = shape kv.2 then v else kv.2
          | none => kv.2))).Nodup := by
        unfold Dict.keys at hp ⊢
        rw [List.map_map]
        exact hp
      simp only at h3 h4 h5
      rw [h5]
      refine Dict.get?_of_mem hn' (List.mem_map.2 ⟨(k, v), hmem, ?_⟩)
      simp only [h3, h4, if_true]

/-- **C95** A strict load reports names that are missing in the state. -/
def C95_claim : Prop :=
  ∀ (shape : Nat → Unit) (state params params' : Dict String Nat), state.keys.Nodup → params.keys.Nodup →
    load shape true state params = (params', .ok ()) → ∀ k ∈ params.keys, k ∈ state.keys

/-- **C95 is false** `strict` is ignored. -/
theorem C95_false : ¬ C95_claim := fun h =>
  absurd (h (fun _ => ()) [("a", 5)] [("a", 1), ("b", 2)] _ (by decide +kernel) (by decide +kernel)
    (Prod.ext rfl (by decide +kernel)) "b" (by decide +kernel)) (by decide +kernel)

example : load (fun _ : Nat => ()) true [("a", 5), ("c", 6)] [("a", 1), ("b", 2)] = ([("a", 5), ("b", 2)], .ok ()) := by decide +kernel
example := C95_partial (fun _ : Nat => ()) true [("a", 5), ("c", 6)] [("a", 1), ("b", 2)] (by decide +kernel) (by decide +kernel)
  (fun _ _ _ _ _ => rfl)

end Load

end Genrl

end Verif
