import Verif.Model.Collector
import Verif.Props.ModelEnv
import Verif.Props.EndToEnd
import Mathlib.Data.List.Dedup

/-!
# Model rollouts (C94, C106, C107)

Any number of batches, any rollout lengths, any model, policy and draws; samples of the memory may happen in between.
-/

namespace Verif

namespace Coll

open MEnv Spec Props

variable {ω α ρ V : Type}

/-! ## What the memory gets -/

/-- The call of `memory.add` by a sample. -/
def call (cfg : Config ω α ρ V) (d : Draw ω α ρ) (c : Collector ω ρ V) : Spec.Call V Unit :=
  ⟨observations cfg.codec cfg.key c.obs, responses cfg.codec (answers d.act c.obs)⟩

/-- What happens to the memory during the samples. -/
def sampleEvents (cfg : Config ω α ρ V) : List (Draw ω α ρ) → Collector ω ρ V → List (Event V Unit)
  | [], _ => []
  | d :: ds, c => .add (call cfg d c) d.draws :: sampleEvents cfg ds (collectSample cfg d c).1

/-- The collector after the reset of a batch. -/
def started (cfg : Config ω α ρ V) (rows : List ω) (c : Collector ω ρ V) : Collector ω ρ V :=
  let c1 := (updateRolloutSize cfg c).1
  let r := c1.env.dictReset (ρ := ρ) rows c1.lenRollout
  { c1 with env := r.1, obs := match r.2 with | .ok o => o | .error _ => [] }

/-- What happens to the memory during a batch: perhaps a resize, and then the samples. -/
def batchEvents (cfg : Config ω α ρ V) (rows : List ω) (ds : Nat → Draw ω α ρ) (c : Collector ω ρ V) :
    List (Event V Unit) :=
  let len := cfg.sched (c.counter + 1)
  (if c.lenRollout ≠ len then [.resize ((len : Int) * c.env.numEnvs * cfg.retain)] else []) ++
    sampleEvents cfg ((List.range (len + 1)).map ds) (started cfg rows c)

/-- A history of a collector with `n` environments and models that are `allowed`, with what happened to the memory:
batches return normally, samples of the memory may return or raise. -/
inductive Runs (cfg : Config ω α ρ V) (n : Nat) (t0 : Table V) (first : Nat) (allowed : World ω α ρ → Prop) :
    List (Event V Unit) → Collector ω ρ V → Prop where
  | new : Runs cfg n t0 first allowed [] (Collector.new n t0 first)
  | batch {es c c' rows ds} : Runs cfg n t0 first allowed es c → (∀ i, allowed (ds i).world) →
      beginBatch cfg rows ds c = (c', .ok ()) → Runs cfg n t0 first allowed (es ++ batchEvents cfg rows ds c) c'
  | sample {es c t' count l x r junk res} : Runs cfg n t0 first allowed es c →
      Table.sample count l x r junk c.proxy.table = (t', res) → res ≠ .error .overflowError →
      Runs cfg n t0 first allowed (es ++ [.sample count l x r junk]) { c with proxy := { c.proxy with table := t' } }

/-- From step `s` to step `s'` the model went, asked with what `s` shows. -/
def Genuine (cfg : Config ω α ρ V) (n : Nat) (allowed : World ω α ρ → Prop) (s s' : Step V Unit) : Prop :=
  ∃ w, allowed w ∧ ∃ i < n, ∃ o act, s.obs.arrays = [(cfg.key, cfg.codec.data o)] ∧
    s.resp = some ⟨[("actions", cfg.codec.action act)], []⟩ ∧
    s'.obs.arrays = [(cfg.key, cfg.codec.data (w.sample i o act).1)] ∧
    s'.obs.rewards = [("reward", cfg.codec.reward (some (w.sample i o act).2))]

/-! ## Steps of a call -/

section

variable (cfg : Config ω α ρ V)

/-- The step of an agent. -/
def stepOf (act : Nat → ω → α) (p : Nat × MEnv.Obs ω ρ) : Step V Unit :=
  ⟨p.1, ⟨[("reward", cfg.codec.reward p.2.reward)], p.2.state, [(cfg.key, cfg.codec.data p.2.data)], none⟩,
    if goesOn p.2 then some ⟨[("actions", cfg.codec.action (act p.1 p.2.data))], []⟩ else none⟩

theorem goesOn_iff (o : MEnv.Obs ω ρ) : goesOn o = true ↔ o.state = .initial ∨ o.state = .running := by
  unfold goesOn
  cases o.state <;> simp

theorem stepOf_ends (act : Nat → ω → α) (p : Nat × MEnv.Obs ω ρ) : (stepOf cfg act p).ends = !goesOn p.2 := by
  unfold Step.ends stepOf goesOn
  cases p.2.state <;> rfl

theorem get?_answers (act : Nat → ω → α) (obs : Dict Nat (MEnv.Obs ω ρ)) (hnd : (Dict.keys obs).Nodup) (k : Nat)
    (o : MEnv.Obs ω ρ) (h : (k, o) ∈ obs) :
    Dict.get? (answers act obs) k = if goesOn o then some (act k o.data) else none := by
  have hnd' : (Dict.keys (answers act obs)).Nodup := by
    have : Dict.keys (answers act obs) = Dict.keys (obs.filter fun p => goesOn p.2) := by
      simp [Dict.keys, answers]
    rw [this]
    exact (List.filter_sublist.map Prod.fst).nodup hnd
  by_cases hg : goesOn o = true
  · rw [if_pos hg]
    refine Dict.get?_of_mem hnd' (List.mem_map.2 ⟨(k, o), List.mem_filter.2 ⟨h, hg⟩, rfl⟩)
  · rw [if_neg hg, Dict.get?_none_iff]
    intro hm
    obtain ⟨p, hp, hk⟩ := List.mem_map.1 hm
    obtain ⟨q, hq, rfl⟩ := List.mem_map.1 hp
    obtain ⟨h1, h2⟩ := List.mem_filter.1 hq
    have : q = (k, o) := by
      obtain ⟨q1, q2⟩ := q
      simp only at hk
      subst hk
      have e1 := Dict.get?_of_mem hnd h1
      have e2 := Dict.get?_of_mem hnd h
      rw [e1] at e2
      cases e2; rfl
    rw [this] at h2
    exact hg h2

theorem get?_responses (x : Codec ω α ρ V) (actions : Dict Nat α) (k : Nat) :
    Dict.get? (responses x actions) (k : Int) = (Dict.get? actions k).map fun a => ⟨[("actions", x.action a)], []⟩ := by
  induction actions with
  | nil => rfl
  | cons p l ih =>
    simp only [responses, List.map_cons, Dict.get?] at ih ⊢
    by_cases h : p.1 = k
    · simp [h]
    · have : ¬ (p.1 : Int) = k := by omega
      simp [h, this, ih]

theorem call_steps (d : Draw ω α ρ) (c : Collector ω ρ V) (hnd : (Dict.keys c.obs).Nodup) :
    (call cfg d c).steps = c.obs.map (stepOf cfg d.act) := by
  unfold Spec.Call.steps call observations
  rw [List.map_map]
  refine List.map_congr_left fun p hp => ?_
  simp only [Function.comp, stepOf]
  rw [get?_responses, get?_answers d.act c.obs hnd p.1 p.2 hp]
  split <;> rfl

theorem call_wf (d : Draw ω α ρ) (c : Collector ω ρ V) (hnd : (Dict.keys c.obs).Nodup) : (call cfg d c).WF := by
  refine ⟨?_, ?_, ?_⟩
  · have : Dict.keys (call cfg d c).observations = (Dict.keys c.obs).map fun k : Nat => (k : Int) := by
      simp [Dict.keys, call, observations]
    rw [this]
    exact List.Pairwise.map _ (fun a b h => by omega) hnd
  · intro a o h
    obtain ⟨p, -, hp⟩ := List.mem_map.1 h
    cases hp
    simp [Dict.keys]
  · intro a r h
    obtain ⟨p, -, hp⟩ := List.mem_map.1 h
    cases hp
    simp [Dict.keys]

theorem ongoing_append_other {a : Int} (h l : List (Step V Unit)) (hl : ∀ s ∈ l, s.agent ≠ a) :
    ongoing a (h ++ l) = ongoing a h := by
  induction l generalizing h with
  | nil => simp
  | cons s l ih =>
    rw [show h ++ s :: l = (h ++ [s]) ++ l by simp, ih _ fun x hx => hl x (by simp [hx]),
      ongoing_snoc_other h (hl s (by simp))]

/-- In the steps of a call, an agent comes once. -/
theorem others {act : Nat → ω → α} {obs : Dict Nat (MEnv.Obs ω ρ)} (hnd : (Dict.keys obs).Nodup)
    {l1 l2 : List (Nat × MEnv.Obs ω ρ)} {p : Nat × MEnv.Obs ω ρ} (e : obs = l1 ++ p :: l2) :
    (∀ s ∈ l1.map (stepOf cfg act), s.agent ≠ (p.1 : Int)) ∧ ∀ s ∈ l2.map (stepOf cfg act), s.agent ≠ (p.1 : Int) := by
  subst e
  rw [Dict.keys_append, Dict.keys_cons, List.nodup_append] at hnd
  obtain ⟨-, h2, h3⟩ := hnd
  refine ⟨fun s hs => ?_, fun s hs => ?_⟩
  · obtain ⟨q, hq, rfl⟩ := List.mem_map.1 hs
    simp only [stepOf]
    intro he
    exact h3 q.1 (List.mem_map.2 ⟨q, hq, rfl⟩) p.1 (by simp) (by omega)
  · obtain ⟨q, hq, rfl⟩ := List.mem_map.1 hs
    simp only [stepOf]
    intro he
    rw [List.nodup_cons] at h2
    have : q.1 = p.1 := by omega
    exact h2.1 (this ▸ List.mem_map.2 ⟨q, hq, rfl⟩)

/-- The open episode of an agent of the call, after the call. -/
theorem ongoing_call {act : Nat → ω → α} {obs : Dict Nat (MEnv.Obs ω ρ)} (hnd : (Dict.keys obs).Nodup)
    (h : List (Step V Unit)) {k : Nat} {o : MEnv.Obs ω ρ} (hm : (k, o) ∈ obs) :
    ongoing (k : Int) (h ++ obs.map (stepOf cfg act)) =
      if goesOn o then ongoing (k : Int) h ++ [stepOf cfg act (k, o)] else [] := by
  obtain ⟨l1, l2, e⟩ := List.append_of_mem hm
  obtain ⟨h1, h2⟩ := others cfg (act := act) hnd e
  dsimp only at h1 h2
  rw [e, List.map_append, List.map_cons, show h ++ (l1.map (stepOf cfg act) ++ stepOf cfg act (k, o) :: l2.map (stepOf cfg act)) =
    ((h ++ l1.map (stepOf cfg act)) ++ [stepOf cfg act (k, o)]) ++ l2.map (stepOf cfg act) by simp]
  rw [ongoing_append_other _ _ h2]
  by_cases hg : goesOn o = true
  · rw [if_pos hg, ongoing_snoc (a := (k : Int)) (s := stepOf cfg act (k, o)) _ rfl (by rw [stepOf_ends]; simp [hg]), ongoing_append_other _ _ h1]
  · rw [if_neg hg, ongoing_snoc_ends (a := (k : Int)) (s := stepOf cfg act (k, o)) _ rfl (by rw [stepOf_ends]; simp [hg])]

/-! ## Invariants -/

section

variable (n : Nat) (allowed : World ω α ρ → Prop)

/-- The termination function never ends an episode. -/
def NoTerm : Prop := ∀ w, allowed w → ∀ i o, w.done i o = false

/-- What holds between batches, for the steps `h` so far. -/
structure Base (c : Collector ω ρ V) (h : List (Step V Unit)) : Prop where
  inv : MEnv.Inv c.env
  num : c.env.numEnvs = n
  env : Environment [cfg.key] h
  old : ∀ s ∈ h, ∃ k : Nat, s.agent = k ∧ k < c.env.nextAgent
  once : ∀ pre s post, h = pre ++ s :: post → s.ends = true → ∀ x ∈ post, x.agent ≠ s.agent
  genuine : ∀ s s', Consecutive h s s' → (s.obs.state = .running ∨ NoTerm allowed) → Genuine cfg n allowed s s'
  begun : ∀ pre s post, h = pre ++ s :: post → s.obs.state ≠ .initial → ongoing s.agent pre ≠ []

/-- What holds after `j` samples of a batch with rollout length `len`; the agents in `open_` have open episodes from
earlier batches. -/
structure Mid (open_ : List Int) (c : Collector ω ρ V) (h : List (Step V Unit)) (j len : Nat) : Prop
    extends Base cfg n allowed c h where
  nodup : (Dict.keys c.obs).Nodup
  live : (Dict.keys (c.obs.filter fun p => p.2.state = .initial ∨ p.2.state = .running)).Perm c.env.ids
  time : c.env.timestep = j
  rollout : c.env.lenRollout = len
  short : ∀ (k : Nat) o, Dict.get? c.obs k = some o → (ongoing (k : Int) h).length ≤ j
  entry : ∀ k o, Dict.get? c.obs k = some o → k < c.env.nextAgent ∧ (k : Int) ∉ open_ ∧
    (o.state = .initial → ∀ s ∈ h, s.agent ≠ (k : Int)) ∧
    (o.state ≠ .initial → ∃ s, (ongoing (k : Int) h).getLast? = some s ∧
      ((s.obs.state = .running ∨ j ≤ 1 ∨ (NoTerm allowed ∧ j ≤ len)) → ∃ w, allowed w ∧ ∃ i < n, ∃ o' act,
        s.obs.arrays = [(cfg.key, cfg.codec.data o')] ∧ s.resp = some ⟨[("actions", cfg.codec.action act)], []⟩ ∧
        o.data = (w.sample i o' act).1 ∧ o.reward = some (w.sample i o' act).2))
  aligned : ∀ (i k : Nat) o, c.env.ids[i]? = some k → Dict.get? c.obs k = some o →
    (o.state = .running ∨ j = 0 ∨ (NoTerm allowed ∧ j < len)) → c.env.current.bind (·[i]?) = some o.data
  rest : (Dict.keys (c.obs.filter fun p => p.2.state ≠ .initial)).length = if j = 0 then 0 else n
  late : len ≤ j → ∀ k o, Dict.get? c.obs k = some o → o.state ≠ .running
  opens : ∀ a, ongoing a h ≠ [] ↔ a ∈ open_ ∨ ∃ (k : Nat) (o : MEnv.Obs ω ρ), a = k ∧ Dict.get? c.obs k = some o ∧ o.state ≠ .initial
  idle : ∀ a ∈ open_, ∀ s ∈ ongoing a h, s.obs.state = .initial

variable {cfg n allowed}

theorem stepOf_env (act : Nat → ω → α) (p : Nat × MEnv.Obs ω ρ) : EnvStep [cfg.key] (stepOf cfg act p) := by
  refine ⟨fun k => by simp [stepOf, Dict.keys], fun _ => by simp [stepOf, Dict.keys], fun he => ?_⟩
  rw [stepOf_ends] at he
  have hg : goesOn p.2 = true := by simpa using he
  exact ⟨⟨[("actions", cfg.codec.action (act p.1 p.2.data))], []⟩, _, by simp only [stepOf, hg, if_true], rfl, rfl⟩

/-- Where a step of a longer stream is. -/
theorem split_cases {h l pre post : List (Step V Unit)} {s : Step V Unit} (e : h ++ l = pre ++ s :: post) :
    (∃ post', h = pre ++ s :: post' ∧ post = post' ++ l) ∨ (∃ pre', pre = h ++ pre' ∧ l = pre' ++ s :: post) := by
  rcases List.append_eq_append_iff.1 e with ⟨a, h1, h2⟩ | ⟨a, h1, h2⟩
  · exact Or.inr ⟨a, h1, h2⟩
  · cases a with
    | nil => exact Or.inr ⟨[], by simpa using h1.symm, by simpa using h2.symm⟩
    | cons x a =>
      simp only [List.cons_append, List.cons.injEq] at h2
      obtain ⟨rfl, h2⟩ := h2
      exact Or.inl ⟨a, h1, h2⟩

theorem consecutive_last {h : List (Step V Unit)} {pre mid : List (Step V Unit)} {s : Step V Unit}
    (e : h = pre ++ s :: mid) (h1 : s.ends = false) (h2 : ∀ x ∈ mid, x.agent ≠ s.agent) :
    (ongoing s.agent h).getLast? = some s := by
  rw [e, show pre ++ s :: mid = (pre ++ [s]) ++ mid by simp, ongoing_append_other _ _ h2, ongoing_snoc _ rfl h1]
  simp

theorem collect_ok_iff {d : Draw ω α ρ} {c c' : Collector ω ρ V} (hs : collectSample cfg d c = (c', .ok ())) :
    ∃ env next p, c.env.dictStep d.world (answers d.act c.obs) = (env, .ok next) ∧
      Proxy.add cfg.proxy (fun a ep t => Table.addSequence (d.draws a) a ep t) (call cfg d c).observations
        (call cfg d c).responses c.proxy = (p, .ok ()) ∧
      c' = { c with env := env, proxy := p, obs := next } := by
  unfold collectSample at hs
  simp only at hs
  split at hs
  · simp at hs
  · next env next he =>
    split at hs
    · simp at hs
    · next p hp =>
      simp only [Prod.mk.injEq, and_true] at hs
      exact ⟨env, next, p, he, hp, hs.symm⟩

/-- One sample, between the batches' view. -/
theorem sample_base {open_ : List Int} {d : Draw ω α ρ} {c : Collector ω ρ V} {h : List (Step V Unit)} {j len : Nat}
    (hm : Mid cfg n allowed open_ c h j len) (hj : j ≤ len) {env : Env ω} {next : Dict Nat (MEnv.Obs ω ρ)}
    (he : c.env.dictStep d.world (answers d.act c.obs) = (env, .ok next)) (p : Proxy V (Table V)) :
    Base cfg n allowed { c with env := env, proxy := p, obs := next } (h ++ (call cfg d c).steps) := by
  have hst := step_spec c.env env hm.inv d.world _ next he
  rw [call_steps cfg d c hm.nodup]
  have hsplit : ∀ pre' s post, c.obs.map (stepOf cfg d.act) = pre' ++ s :: post →
      ∃ l1 q l2, c.obs = l1 ++ q :: l2 ∧ pre' = l1.map (stepOf cfg d.act) ∧ s = stepOf cfg d.act q ∧
        post = l2.map (stepOf cfg d.act) := by
    intro pre' s post e
    obtain ⟨l1, l', e1, e2, e3⟩ := List.map_eq_append_iff.1 e
    obtain ⟨q, l2, e4, e5, e6⟩ := List.map_eq_cons_iff.1 e3
    exact ⟨l1, q, l2, by rw [e1, e4], e2.symm, e5.symm, e6.symm⟩
  have hget : ∀ l1 q l2, c.obs = l1 ++ q :: l2 → Dict.get? c.obs q.1 = some q.2 := fun l1 q l2 e =>
    Dict.get?_of_mem hm.nodup (by rw [e]; simp)
  refine ⟨hst.inv, hst.num.trans hm.num, ⟨?_, ?_⟩, ?_, ?_, ?_, ?_⟩
  · intro s hs
    rcases List.mem_append.1 hs with hs | hs
    · exact hm.env.steps s hs
    · obtain ⟨q, -, rfl⟩ := List.mem_map.1 hs
      exact stepOf_env _ _
  · intro pre s post e
    rcases split_cases e with ⟨post', e1, -⟩ | ⟨pre', rfl, e1⟩
    · exact hm.env.starts pre s post' e1
    · obtain ⟨l1, q, l2, f1, rfl, rfl, -⟩ := hsplit _ _ _ e1
      have hg := hget _ _ _ f1
      obtain ⟨g1, -, g2, g3⟩ := hm.entry _ _ hg
      have ho : ongoing (stepOf cfg d.act q).agent (h ++ l1.map (stepOf cfg d.act)) = ongoing (q.1 : Int) h :=
        ongoing_append_other _ _ (others cfg hm.nodup f1).1
      rw [ho]
      constructor
      · intro hi
        refine ⟨?_, ?_⟩
        · by_contra hne
          obtain ⟨x, hx⟩ := List.exists_mem_of_ne_nil _ hne
          obtain ⟨h1, h2, -⟩ := ongoing_mem hx
          exact g2 hi x h1 h2
        · rw [stepOf_ends]
          have : goesOn q.2 = true := (goesOn_iff _).2 (Or.inl hi)
          simp [this]
      · rintro ⟨h1, -⟩
        by_contra hni
        obtain ⟨x, hx, -⟩ := g3 hni
        rw [h1] at hx
        simp at hx
  · intro s hs
    rcases List.mem_append.1 hs with hs | hs
    · obtain ⟨k, h1, h2⟩ := hm.old s hs
      exact ⟨k, h1, Nat.lt_of_lt_of_le h2 hst.mono⟩
    · obtain ⟨q, hq, rfl⟩ := List.mem_map.1 hs
      have hg := Dict.get?_of_mem hm.nodup hq
      exact ⟨q.1, rfl, Nat.lt_of_lt_of_le (hm.entry _ _ hg).1 hst.mono⟩
  · intro pre s post e he
    rcases split_cases e with ⟨post', e1, rfl⟩ | ⟨pre', rfl, e1⟩
    · intro x hx
      rcases List.mem_append.1 hx with hx | hx
      · exact hm.once pre s post' e1 he x hx
      · obtain ⟨q, hq, rfl⟩ := List.mem_map.1 hx
        have hg := Dict.get?_of_mem hm.nodup hq
        obtain ⟨-, -, g2, g3⟩ := hm.entry _ _ hg
        intro hag
        have hsh : s ∈ h := by rw [e1]; simp
        by_cases hi : q.2.state = .initial
        · exact g2 hi s hsh hag.symm
        · obtain ⟨x, hx, -⟩ := g3 hi
          have hag' : s.agent = (q.1 : Int) := hag.symm
          rw [e1, show pre ++ s :: post' = (pre ++ [s]) ++ post' by simp,
            ongoing_append_other _ _ (fun y hy => by rw [← hag']; exact hm.once pre s post' e1 he y hy),
            ongoing_snoc_ends _ hag' he] at hx
          simp at hx
    · obtain ⟨l1, q, l2, f1, rfl, rfl, rfl⟩ := hsplit _ _ _ e1
      exact (others cfg hm.nodup f1).2
  · rintro s s' ⟨pre, mid, post, e, h1, h2, h3⟩ hc
    rw [show pre ++ s :: (mid ++ s' :: post) = (pre ++ s :: mid) ++ s' :: post by simp] at e
    rcases split_cases e with ⟨post', e1, -⟩ | ⟨pre', e0, e1⟩
    · exact hm.genuine s s' ⟨pre, mid, post', by rw [e1]; simp, h1, h2, h3⟩ hc
    · obtain ⟨l1, q, l2, f1, rfl, rfl, -⟩ := hsplit _ _ _ e1
      have ho := (others cfg (act := d.act) hm.nodup f1).1
      rcases split_cases e0.symm with ⟨mid', e2, -⟩ | ⟨pre2, -, e2⟩
      · have hag : s.agent = (q.1 : Int) := h2.symm
        have hlast := consecutive_last e2 h1 (fun x hx => h3 x (by
          have : mid = mid' ++ l1.map (stepOf cfg d.act) := by
            rw [e2, List.append_assoc, List.append_cancel_left_eq] at e0
            simpa using e0
          rw [this]; simp [hx]))
        rw [hag] at hlast
        obtain ⟨-, -, g2, g3⟩ := hm.entry _ _ (hget _ _ _ f1)
        have hni : q.2.state ≠ .initial := fun hi => g2 hi s (by rw [e2]; simp) hag
        obtain ⟨x, hx, hgen⟩ := g3 hni
        rw [hlast] at hx
        cases hx
        obtain ⟨w, a1, i, a2, o', act, a3, a4, a5, a6⟩ := hgen (by
          rcases hc with hc | hc
          · exact Or.inl hc
          · exact Or.inr (Or.inr ⟨hc, hj⟩))
        exact ⟨w, a1, i, a2, o', act, a3, a4, by simp only [stepOf, a5], by simp only [stepOf, a6]⟩
      · exact absurd h2.symm (ho s (by rw [e2]; simp))
  · intro pre s post e hni
    rcases split_cases e with ⟨post', e1, -⟩ | ⟨pre', rfl, e1⟩
    · exact hm.begun pre s post' e1 hni
    · obtain ⟨l1, q, l2, f1, rfl, rfl, -⟩ := hsplit _ _ _ e1
      obtain ⟨-, -, -, g3⟩ := hm.entry _ _ (hget _ _ _ f1)
      have ho : ongoing (stepOf cfg d.act q).agent (h ++ l1.map (stepOf cfg d.act)) = ongoing (q.1 : Int) h :=
        ongoing_append_other _ _ (others cfg hm.nodup f1).1
      rw [ho]
      intro h0
      obtain ⟨x, hx, -⟩ := g3 hni
      rw [h0] at hx
      simp at hx

/-- The agents that go on are those of the environment. -/
theorem live_mem {open_ : List Int} {c : Collector ω ρ V} {h : List (Step V Unit)} {j len : Nat}
    (hm : Mid cfg n allowed open_ c h j len) (k : Nat) :
    k ∈ c.env.ids ↔ ∃ o, Dict.get? c.obs k = some o ∧ goesOn o = true := by
  rw [← hm.live.mem_iff]
  constructor
  · intro hk
    obtain ⟨p, hp, rfl⟩ := List.mem_map.1 hk
    obtain ⟨h1, h2⟩ := List.mem_filter.1 hp
    exact ⟨p.2, Dict.get?_of_mem hm.nodup h1, (goesOn_iff _).2 (by simpa using h2)⟩
  · rintro ⟨o, h1, h2⟩
    exact List.mem_map.2 ⟨(k, o), List.mem_filter.2 ⟨Dict.mem_of_get? h1, by simpa using (goesOn_iff _).1 h2⟩, rfl⟩

theorem perm_of_mem {l l' : List Nat} (h1 : l.Nodup) (h2 : l'.Nodup) (h : ∀ k, k ∈ l ↔ k ∈ l') : l.Perm l' :=
  (List.perm_ext_iff_of_nodup h1 h2).2 h

/-- One sample. -/
theorem sample_mid {open_ : List Int} {d : Draw ω α ρ} {c : Collector ω ρ V} {h : List (Step V Unit)} {j len : Nat}
    (hm : Mid cfg n allowed open_ c h j len) (hj : j ≤ len) (hd : allowed d.world) {env : Env ω}
    {next : Dict Nat (MEnv.Obs ω ρ)} (he : c.env.dictStep d.world (answers d.act c.obs) = (env, .ok next))
    (p : Proxy V (Table V)) :
    Mid cfg n allowed open_ { c with env := env, proxy := p, obs := next } (h ++ (call cfg d c).steps) (j + 1) len := by
  have hbase := sample_base hm hj he p
  have hst := step_spec c.env env hm.inv d.world _ next he
  obtain ⟨ht1, ht2⟩ := step_time c.env env d.world _ next he
  rw [call_steps cfg d c hm.nodup] at hbase ⊢
  -- an agent that went on
  have hrow : ∀ (i k : Nat), c.env.ids[i]? = some k → ∃ o cur, Dict.get? c.obs k = some o ∧ goesOn o = true ∧
      c.env.current.bind (·[i]?) = some cur ∧
      env.current.bind (·[i]?) = some (d.world.sample i cur (d.act k o.data)).1 ∧
      Dict.get? next k = some ⟨if d.world.done i (d.world.sample i cur (d.act k o.data)).1 then .terminal else
        if len ≤ j + 1 then .interrupted else .running, (d.world.sample i cur (d.act k o.data)).1,
        some (d.world.sample i cur (d.act k o.data)).2⟩ ∧
      ((d.world.done i (d.world.sample i cur (d.act k o.data)).1 = true ∨ len ≤ j + 1) → k ∉ env.ids) := by
    intro i k hk
    obtain ⟨o, h1, h2⟩ := (live_mem hm k).1 (List.mem_of_getElem? hk)
    obtain ⟨cur, a, ini, g1, g2, -, g3, g4, g5, -⟩ := hst.row i k hk
    rw [get?_answers d.act c.obs hm.nodup k o (Dict.mem_of_get? h1), if_pos h2] at g2
    cases g2
    refine ⟨o, cur, h1, h2, g1, g3, ?_, fun hor => (g5 ?_).1⟩
    · rw [g4, hm.time, hm.rollout]
      simp
    · rw [hm.time, hm.rollout]
      simpa using hor
  have hold : ∀ k, k ∈ c.env.ids → ∃ o, Dict.get? next k = some o ∧ o.state ≠ .initial := by
    intro k hk
    obtain ⟨i, hi⟩ := List.mem_iff_getElem?.1 hk
    obtain ⟨o, cur, -, -, -, -, g, -⟩ := hrow i k hi
    refine ⟨_, g, ?_⟩
    simp only
    split
    · simp
    · split <;> simp
  have hent : ∀ k o, Dict.get? next k = some o → o.state ≠ .initial → k ∈ c.env.ids := by
    intro k o hg hni
    rcases hst.only k o hg with hk | ⟨-, -, hi⟩
    · exact hk
    · exact absurd hi hni
  have hlt : ∀ k o, Dict.get? next k = some o → k < env.nextAgent := by
    intro k o hg
    rcases hst.only k o hg with hk | ⟨-, hk, -⟩
    · exact Nat.lt_of_lt_of_le (hm.inv.lt k hk) hst.mono
    · exact hst.inv.lt k hk
  have hagents : ∀ s ∈ h ++ c.obs.map (stepOf cfg d.act), ∃ k : Nat, s.agent = k ∧ k < c.env.nextAgent := by
    intro s hs
    rcases List.mem_append.1 hs with hs | hs
    · exact hm.old s hs
    · obtain ⟨q, hq, rfl⟩ := List.mem_map.1 hs
      exact ⟨q.1, rfl, (hm.entry _ _ (Dict.get?_of_mem hm.nodup hq)).1⟩
  have hopen : ∀ a ∈ open_, ongoing a (h ++ c.obs.map (stepOf cfg d.act)) = ongoing a h := by
    intro a ha
    refine ongoing_append_other _ _ fun s hs hag => ?_
    obtain ⟨q, hq, rfl⟩ := List.mem_map.1 hs
    exact (hm.entry _ _ (Dict.get?_of_mem hm.nodup hq)).2.1 (by rw [show (q.1 : Int) = a from hag]; exact ha)
  refine { toBase := hbase, nodup := hst.nodup, live := hst.live, time := by rw [← hm.time]; exact ht1,
           rollout := ht2.trans hm.rollout, short := ?_, entry := ?_, aligned := ?_, rest := ?_, late := ?_, opens := ?_, idle := ?_ }
  · intro k o hg
    rcases hst.only k o hg with hk | ⟨hk, -, -⟩
    · obtain ⟨o0, g1, g2⟩ := (live_mem hm k).1 hk
      rw [ongoing_call cfg (act := d.act) hm.nodup h (Dict.mem_of_get? g1), if_pos g2, List.length_append,
        List.length_singleton]
      have := hm.short k o0 g1
      omega
    · have : ongoing (k : Int) (h ++ c.obs.map (stepOf cfg d.act)) = [] := by
        by_contra hne
        obtain ⟨x, hx⟩ := List.exists_mem_of_ne_nil _ hne
        obtain ⟨h1, h2, -⟩ := ongoing_mem hx
        obtain ⟨k', h3, h4⟩ := hagents x h1
        rw [h2] at h3
        omega
      rw [this]
      simp
  · intro k o hg
    refine ⟨hlt k o hg, ?_, ?_, ?_⟩
    · by_cases hi : o.state = .initial
      · intro ho
        have hne : ongoing (k : Int) h ≠ [] := (hm.opens _).2 (Or.inl ho)
        obtain ⟨x, hx⟩ := List.exists_mem_of_ne_nil _ hne
        obtain ⟨h1, h2, -⟩ := ongoing_mem hx
        obtain ⟨k', h3, h4⟩ := hm.old x h1
        rcases hst.only k o hg with hk | ⟨hk, -, -⟩
        · obtain ⟨o', h5, h6⟩ := hold k hk
          rw [hg] at h5; cases h5
          exact h6 hi
        · rw [h2] at h3; omega
      · obtain ⟨o', h1, -⟩ := (live_mem hm k).1 (hent k o hg hi)
        exact (hm.entry k o' h1).2.1
    · intro hi s hs hag
      rcases hst.only k o hg with hk | ⟨hk, -, -⟩
      · obtain ⟨o', h5, h6⟩ := hold k hk
        rw [hg] at h5; cases h5
        exact h6 hi
      · obtain ⟨k', h3, h4⟩ := hagents s hs
        rw [hag] at h3; omega
    · intro hni
      obtain ⟨i, hi⟩ := List.mem_iff_getElem?.1 (hent k o hg hni)
      obtain ⟨o0, cur, g1, g2, g3, g4, g5, -⟩ := hrow i k hi
      have hon := ongoing_call cfg (act := d.act) hm.nodup h (Dict.mem_of_get? g1)
      rw [if_pos g2] at hon
      refine ⟨stepOf cfg d.act (k, o0), by rw [hon]; simp, fun hc => ?_⟩
      have hal := hm.aligned i k o0 hi g1 (by
        rcases hc with hc | hc | ⟨hc, hc'⟩
        · exact Or.inl hc
        · exact Or.inr (Or.inl (by omega))
        · exact Or.inr (Or.inr ⟨hc, by omega⟩))
      rw [g3] at hal
      cases hal
      rw [hg] at g5
      cases g5
      refine ⟨d.world, hd, i, ?_, o0.data, d.act k o0.data, rfl, by simp only [stepOf, g2, if_true], rfl, rfl⟩
      rw [← hm.num, ← hm.inv.length]
      exact (List.getElem?_eq_some_iff.1 hi).1
  · intro i k o hi hg hc
    have hrun : o.state = .running := by
      rcases hc with hc | hc | ⟨hc, hc'⟩
      · exact hc
      · omega
      · by_contra hnr
        have hk : k ∈ c.env.ids := by
          rcases hst.new k (List.mem_of_getElem? hi) with hk | hk
          · exact hk
          · exfalso
            have hlen : i < c.env.ids.length := by
              rw [hm.inv.length, ← hst.num, ← hst.inv.length]; exact (List.getElem?_eq_some_iff.1 hi).1
            obtain ⟨k0, hk0⟩ : ∃ k0, c.env.ids[i]? = some k0 := ⟨_, List.getElem?_eq_getElem hlen⟩
            obtain ⟨cur, a, ini, g1, g2, -, g3, g4, -, g6⟩ := hst.row i k0 hk0
            have hk1 := g6 (by
              rw [hc d.world hd, hm.time, hm.rollout]
              have : ¬ len ≤ j + 1 := by omega
              simp [this])
            rw [hi] at hk1
            cases hk1
            have := hm.inv.lt k (List.mem_of_getElem? hk0)
            omega
        obtain ⟨i', hi'⟩ := List.mem_iff_getElem?.1 hk
        obtain ⟨o0, cur, -, -, -, -, g5, -⟩ := hrow i' k hi'
        rw [hg] at g5
        cases g5
        apply hnr
        have : ¬ len ≤ j + 1 := by omega
        simp [hc d.world hd, this]
    have hk : k ∈ c.env.ids := hent k o hg (by rw [hrun]; simp)
    -- the place is the same
    have hlen : i < c.env.ids.length := by
      rw [hm.inv.length, ← hst.num, ← hst.inv.length]; exact (List.getElem?_eq_some_iff.1 hi).1
    obtain ⟨k0, hk0⟩ : ∃ k0, c.env.ids[i]? = some k0 := ⟨_, List.getElem?_eq_getElem hlen⟩
    obtain ⟨cur, a, ini, g1, g2, -, g3, g4, g5, g6⟩ := hst.row i k0 hk0
    have hkk : k0 = k := by
      cases hb : (d.world.done i (d.world.sample i cur a).1 || decide (c.env.lenRollout ≤ c.env.timestep + 1)) with
      | true =>
        obtain ⟨-, k', q1, q2, -⟩ := g5 hb
        rw [hi] at q1
        cases q1
        have := hm.inv.lt k hk
        omega
      | false =>
        have := g6 hb
        rw [hi] at this
        cases this; rfl
    subst hkk
    rw [hg] at g4
    cases g4
    exact g3
  · rw [if_neg (by omega), ← hm.num, ← hm.inv.length]
    refine (perm_of_mem ?_ hm.inv.nodup fun k => ⟨fun hk => ?_, fun hk => ?_⟩).length_eq
    · exact (List.filter_sublist.map Prod.fst).nodup hst.nodup
    · obtain ⟨q, hq, rfl⟩ := List.mem_map.1 hk
      obtain ⟨h1, h2⟩ := List.mem_filter.1 hq
      exact hent q.1 q.2 (Dict.get?_of_mem hst.nodup h1) (by simpa using h2)
    · obtain ⟨o, h1, h2⟩ := hold k hk
      exact List.mem_map.2 ⟨(k, o), List.mem_filter.2 ⟨Dict.mem_of_get? h1, by simpa using h2⟩, rfl⟩
  · intro hle k o hg hr
    obtain ⟨i, hi⟩ := List.mem_iff_getElem?.1 (hent k o hg (by rw [hr]; simp))
    obtain ⟨o0, cur, -, -, -, -, g5, -⟩ := hrow i k hi
    rw [hg] at g5
    cases g5
    simp only [hle, if_true] at hr
    split at hr <;> cases hr
  · intro a
    constructor
    · intro hne
      by_cases hin : ∃ q ∈ c.obs, (q.1 : Int) = a
      · obtain ⟨q, hq, rfl⟩ := hin
        rw [ongoing_call cfg (act := d.act) hm.nodup h hq] at hne
        have hg : goesOn q.2 = true := by
          by_contra hc
          rw [if_neg hc] at hne
          exact hne rfl
        have hk := (live_mem hm q.1).2 ⟨q.2, Dict.get?_of_mem hm.nodup hq, hg⟩
        obtain ⟨o, h1, h2⟩ := hold q.1 hk
        exact Or.inr ⟨q.1, o, rfl, h1, h2⟩
      · rw [ongoing_append_other _ _ (fun s hs hag => by
          obtain ⟨q, hq, rfl⟩ := List.mem_map.1 hs
          exact hin ⟨q, hq, hag⟩)] at hne
        rcases (hm.opens a).1 hne with ho | ⟨k, o, rfl, h1, -⟩
        · exact Or.inl ho
        · exact absurd ⟨(k, o), Dict.mem_of_get? h1, rfl⟩ hin
    · rintro (ho | ⟨k, o, rfl, h1, h2⟩)
      · rw [hopen a ho]
        exact (hm.opens a).2 (Or.inl ho)
      · obtain ⟨o0, g1, g2⟩ := (live_mem hm k).1 (hent k o h1 h2)
        rw [ongoing_call cfg (act := d.act) hm.nodup h (Dict.mem_of_get? g1), if_pos g2]
        simp
  · intro a ha
    rw [hopen a ha]
    exact hm.idle a ha

/-- The steps that are not the first one of their episode. -/
def later (h : List (Step V Unit)) : List (Step V Unit) := h.filter fun s => s.obs.state ≠ .initial

theorem later_append (h l : List (Step V Unit)) : later (h ++ l) = later h ++ later l := List.filter_append ..

theorem later_call {act : Nat → ω → α} (obs : Dict Nat (MEnv.Obs ω ρ)) :
    (later (obs.map (stepOf cfg act))).length = (Dict.keys (obs.filter fun p => p.2.state ≠ .initial)).length := by
  unfold later
  rw [List.filter_map, List.length_map, Dict.keys, List.length_map]
  rfl

/-- What holds between batches, also of the open episodes. -/
structure Between (cfg : Config ω α ρ V) (n : Nat) (allowed : World ω α ρ → Prop) (c : Collector ω ρ V)
    (h : List (Step V Unit)) (open_ : List Int) : Prop extends Base cfg n allowed c h where
  nodup : open_.Nodup
  length : open_.length = n * c.counter
  opens : ∀ a, ongoing a h ≠ [] ↔ a ∈ open_
  idle : ∀ a ∈ open_, ∀ s ∈ ongoing a h, s.obs.state = .initial

/-- The last sample of a batch: all episodes end, and the new ones are left open. -/
theorem sample_last {open_ : List Int} {d : Draw ω α ρ} {c : Collector ω ρ V} {h : List (Step V Unit)} {len : Nat}
    (hm : Mid cfg n allowed open_ c h len len) (hnd : open_.Nodup) :
    ∃ new : List Int, new.length = n ∧ (open_ ++ new).Nodup ∧
      (∀ a, ongoing a (h ++ (call cfg d c).steps) ≠ [] ↔ a ∈ open_ ++ new) ∧
      ∀ a ∈ open_ ++ new, ∀ s ∈ ongoing a (h ++ (call cfg d c).steps), s.obs.state = .initial := by
  rw [call_steps cfg d c hm.nodup]
  have hnr := hm.late (Nat.le_refl _)
  have hmem : ∀ k, k ∈ c.env.ids ↔ ∃ o, Dict.get? c.obs k = some o ∧ o.state = .initial := by
    intro k
    rw [live_mem hm k]
    constructor
    · rintro ⟨o, h1, h2⟩
      rcases (goesOn_iff _).1 h2 with h3 | h3
      · exact ⟨o, h1, h3⟩
      · exact absurd h3 (hnr k o h1)
    · rintro ⟨o, h1, h2⟩
      exact ⟨o, h1, (goesOn_iff _).2 (Or.inl h2)⟩
  have hold : ∀ a ∈ open_, ongoing a (h ++ c.obs.map (stepOf cfg d.act)) = ongoing a h := by
    intro a ha
    refine ongoing_append_other _ _ fun s hs hag => ?_
    obtain ⟨q, hq, rfl⟩ := List.mem_map.1 hs
    exact (hm.entry _ _ (Dict.get?_of_mem hm.nodup hq)).2.1 (by rw [show (q.1 : Int) = a from hag]; exact ha)
  have hnew : ∀ k o, Dict.get? c.obs k = some o → o.state = .initial →
      ongoing (k : Int) (h ++ c.obs.map (stepOf cfg d.act)) = [stepOf cfg d.act (k, o)] := by
    intro k o h1 h2
    rw [ongoing_call cfg (act := d.act) hm.nodup h (Dict.mem_of_get? h1), if_pos ((goesOn_iff _).2 (Or.inl h2))]
    have : ongoing (k : Int) h = [] := by
      by_contra hne
      obtain ⟨x, hx⟩ := List.exists_mem_of_ne_nil _ hne
      obtain ⟨h3, h4, -⟩ := ongoing_mem hx
      exact (hm.entry k o h1).2.2.1 h2 x h3 h4
    rw [this]; rfl
  refine ⟨c.env.ids.map fun k : Nat => (k : Int), by rw [List.length_map, hm.inv.length, hm.num], ?_, ?_, ?_⟩
  · rw [List.nodup_append]
    refine ⟨hnd, List.Pairwise.map _ (fun a b h => by omega) hm.inv.nodup, ?_⟩
    rintro a ha b hb rfl
    obtain ⟨k, hk, rfl⟩ := List.mem_map.1 hb
    obtain ⟨o, h1, -⟩ := (hmem k).1 hk
    exact (hm.entry k o h1).2.1 ha
  · intro a
    rw [List.mem_append]
    constructor
    · intro hne
      by_cases hin : ∃ q ∈ c.obs, (q.1 : Int) = a
      · obtain ⟨q, hq, rfl⟩ := hin
        rw [ongoing_call cfg (act := d.act) hm.nodup h hq] at hne
        have hg : goesOn q.2 = true := by
          by_contra hc
          rw [if_neg hc] at hne
          exact hne rfl
        exact Or.inr (List.mem_map.2 ⟨q.1, (live_mem hm q.1).2 ⟨q.2, Dict.get?_of_mem hm.nodup hq, hg⟩, rfl⟩)
      · rw [ongoing_append_other _ _ (fun s hs hag => by
          obtain ⟨q, hq, rfl⟩ := List.mem_map.1 hs
          exact hin ⟨q, hq, hag⟩)] at hne
        rcases (hm.opens a).1 hne with ho | ⟨k, o, rfl, h1, -⟩
        · exact Or.inl ho
        · exact absurd ⟨(k, o), Dict.mem_of_get? h1, rfl⟩ hin
    · rintro (ho | hn)
      · rw [hold a ho]
        exact (hm.opens a).2 (Or.inl ho)
      · obtain ⟨k, hk, rfl⟩ := List.mem_map.1 hn
        obtain ⟨o, h1, h2⟩ := (hmem k).1 hk
        rw [hnew k o h1 h2]
        simp
  · intro a ha
    rcases List.mem_append.1 ha with ha | ha
    · rw [hold a ha]
      exact hm.idle a ha
    · obtain ⟨k, hk, rfl⟩ := List.mem_map.1 ha
      obtain ⟨o, h1, h2⟩ := (hmem k).1 hk
      rw [hnew k o h1 h2]
      intro s hs
      rw [List.mem_singleton] at hs
      subst hs
      exact h2

theorem sample_same {d : Draw ω α ρ} {c c' : Collector ω ρ V} (hs : collectSample cfg d c = (c', .ok ())) :
    c'.counter = c.counter ∧ c'.lenRollout = c.lenRollout := by
  obtain ⟨env, next, p, -, -, rfl⟩ := collect_ok_iff hs
  exact ⟨rfl, rfl⟩

/-- The rest of the samples of a batch. -/
theorem samples {open_ : List Int} {p0 : Proxy V (Table V)} (hnd : open_.Nodup) (ds : List (Draw ω α ρ)) {len j : Nat}
    {c c' : Collector ω ρ V} {es : List (Event V Unit)} (hm : Mid cfg n allowed open_ c (es.flatMap Event.steps) j len)
    (hl : Life cfg.proxy p0 es c.proxy) (hj : j + ds.length = len + 1) (hne : j ≤ len) (hd : ∀ d ∈ ds, allowed d.world)
    (hs : Res.forEach ds (collectSample cfg) c = (c', .ok ())) :
    ∃ new : List Int, new.length = n ∧ (open_ ++ new).Nodup ∧
      (∀ a, ongoing a ((es ++ sampleEvents cfg ds c).flatMap Event.steps) ≠ [] ↔ a ∈ open_ ++ new) ∧
      (∀ a ∈ open_ ++ new, ∀ s ∈ ongoing a ((es ++ sampleEvents cfg ds c).flatMap Event.steps), s.obs.state = .initial) ∧
      Base cfg n allowed c' ((es ++ sampleEvents cfg ds c).flatMap Event.steps) ∧
      Life cfg.proxy p0 (es ++ sampleEvents cfg ds c) c'.proxy ∧ c'.counter = c.counter ∧
      (later ((sampleEvents cfg ds c).flatMap Event.steps)).length = n * (len + 1 - j - (if j = 0 then 1 else 0)) := by
  induction ds generalizing j c es with
  | nil => simp only [List.length_nil] at hj; omega
  | cons d ds ih =>
    rw [Res.forEach, Res.andThen_eq_ok] at hs
    obtain ⟨c1, _, hs1, hs2⟩ := hs
    simp only [List.length_cons] at hj
    have hc1 : (collectSample cfg d c).1 = c1 := by rw [hs1]
    have hev : (es ++ [Event.add (call cfg d c) d.draws]).flatMap Event.steps = es.flatMap Event.steps ++ (call cfg d c).steps := by
      simp [Event.steps]
    have hl1 : Life cfg.proxy p0 (es ++ [Event.add (call cfg d c) d.draws]) c1.proxy := by
      obtain ⟨env, next, p, -, hp, rfl⟩ := collect_ok_iff hs1
      exact Life.add hl (call_wf cfg d c hm.nodup) hp
    have hcount : (later (call cfg d c).steps).length = if j = 0 then 0 else n := by
      rw [call_steps cfg d c hm.nodup, later_call, hm.rest]
    cases ds with
    | nil =>
      simp only [List.length_nil] at hj
      have hjl : j = len := by omega
      subst hjl
      simp only [Res.forEach, Prod.mk.injEq, and_true] at hs2
      subst hs2
      obtain ⟨new, h1, h2, h3, h4⟩ := sample_last (d := d) hm hnd
      have hb : Base cfg n allowed c1 (es.flatMap Event.steps ++ (call cfg d c).steps) := by
        obtain ⟨env, next, p, he, -, rfl⟩ := collect_ok_iff hs1
        exact sample_base hm (Nat.le_refl _) he p
      simp only [sampleEvents]
      rw [hev]
      refine ⟨new, h1, h2, h3, h4, hb, hl1, (sample_same hs1).1, ?_⟩
      simp only [List.flatMap_cons, List.flatMap_nil, List.append_nil, Event.steps, hcount]
      split
      · next h0 => subst h0; simp
      · rw [show j + 1 - j - 0 = 1 by omega, Nat.mul_one]
    | cons d' ds =>
      have hm1 : Mid cfg n allowed open_ c1 (es.flatMap Event.steps ++ (call cfg d c).steps) (j + 1) len := by
        obtain ⟨env, next, p, he, -, rfl⟩ := collect_ok_iff hs1
        exact sample_mid hm hne (hd d (by simp)) he p
      rw [← hev] at hm1
      simp only [List.length_cons] at hj
      obtain ⟨new, h1, h2, h3, h4, h5, h6, h7, h8⟩ := ih hm1 hl1 (by simp only [List.length_cons]; omega) (by omega)
        (fun x hx => hd x (by simp [hx])) hs2
      have he : sampleEvents cfg (d :: d' :: ds) c = [Event.add (call cfg d c) d.draws] ++ sampleEvents cfg (d' :: ds) c1 := by
        rw [sampleEvents, hc1]; rfl
      rw [he, ← List.append_assoc]
      refine ⟨new, h1, h2, h3, h4, h5, h6, h7.trans (sample_same hs1).1, ?_⟩
      rw [List.flatMap_append, later_append, List.length_append, h8]
      simp only [List.flatMap_cons, List.flatMap_nil, List.append_nil, Event.steps, hcount]
      by_cases h0 : j = 0
      · subst h0; simp
      · rw [if_neg h0, if_neg h0, if_neg (by omega : ¬ j + 1 = 0), Nat.sub_zero, Nat.sub_zero,
          show len + 1 - j = (len + 1 - (j + 1)) + 1 by omega, Nat.mul_add, Nat.mul_one, Nat.add_comm]

/-- The beginning of a batch. -/
theorem start_mid {open_ : List Int} {c : Collector ω ρ V} {h : List (Step V Unit)} (hb : Between cfg n allowed c h open_)
    {rows : List ω} {len : Nat} {env : Env ω} {obs : Dict Nat (MEnv.Obs ω ρ)}
    (hr : c.env.dictReset rows len = (env, .ok obs)) (p : Proxy V (Table V)) (l m : Nat) :
    Mid cfg n allowed open_ (⟨env, p, obs, l, m⟩ : Collector ω ρ V) h 0 len := by
  have hs := reset_spec c.env env rows len _ hr
  obtain ⟨r1, r2, r3, r4⟩ := hs.result obs rfl
  have hfil : obs.filter (fun p => p.2.state = .initial ∨ p.2.state = .running) = obs :=
    List.filter_eq_self.2 fun p hp => by simp [r2 p hp]
  have hfil' : obs.filter (fun p => p.2.state ≠ .initial) = [] :=
    List.filter_eq_nil_iff.2 fun p hp => by simp [r2 p hp]
  have hinit : ∀ k o, Dict.get? obs k = some o → o.state = .initial := fun k o hg => r2 _ (Dict.mem_of_get? hg)
  have hfresh : ∀ k o, Dict.get? obs k = some o → c.env.nextAgent ≤ k ∧ k < env.nextAgent := by
    intro k o hg
    have hk : k ∈ env.ids := r1 ▸ Dict.mem_keys_of_get? hg
    exact ⟨hs.new k hk, hs.inv.lt k hk⟩
  have htime : env.timestep = 0 ∧ env.lenRollout = len := by
    unfold Env.dictReset at hr
    simp only at hr
    split at hr
    · simp only [Prod.mk.injEq] at hr
      obtain ⟨rfl, -⟩ := hr
      exact ⟨rfl, rfl⟩
    · simp at hr
  refine { inv := hs.inv, num := hs.num.trans hb.num, env := hb.env, old := ?_, once := hb.once, genuine := hb.genuine, begun := hb.begun,
           nodup := r1 ▸ hs.inv.nodup, live := by simp only [hfil, r1]; exact List.Perm.refl _, time := htime.1,
           rollout := htime.2, short := ?_, entry := ?_, aligned := ?_, rest := by simp only [hfil']; rfl, late := ?_, opens := ?_,
           idle := hb.idle }
  · intro s hs'
    obtain ⟨k, h1, h2⟩ := hb.old s hs'
    exact ⟨k, h1, Nat.lt_of_lt_of_le h2 hs.mono⟩
  · intro k o hg
    obtain ⟨f1, f2⟩ := hfresh k o hg
    have : ongoing (k : Int) h = [] := by
      by_contra hne
      obtain ⟨x, hx⟩ := List.exists_mem_of_ne_nil _ hne
      obtain ⟨h1, h2, -⟩ := ongoing_mem hx
      obtain ⟨k', h3, h4⟩ := hb.old x h1
      rw [h2] at h3
      omega
    rw [this]
    simp
  · intro k o hg
    obtain ⟨f1, f2⟩ := hfresh k o hg
    have hno : ∀ s ∈ h, s.agent ≠ (k : Int) := by
      intro s hs' hag
      obtain ⟨k', h1, h2⟩ := hb.old s hs'
      rw [hag] at h1
      omega
    refine ⟨f2, fun ho => ?_, fun _ => hno, fun hni => absurd (hinit k o hg) hni⟩
    obtain ⟨x, hx⟩ := List.exists_mem_of_ne_nil _ ((hb.opens _).2 ho)
    obtain ⟨h3, h4, -⟩ := ongoing_mem hx
    exact hno x h3 h4
  · intro i k o hi hg _
    obtain ⟨o', h1, h2⟩ := r4 i k hi
    rw [hg] at h2
    cases h2
    simp only [hs.current.1, Option.bind_some]
    exact h1
  · intro _ k o hg hr'
    rw [hinit k o hg] at hr'
    cases hr'
  · intro a
    rw [hb.opens a]
    constructor
    · exact Or.inl
    · rintro (ho | ⟨k, o, rfl, hg, hni⟩)
      · exact ho
      · exact absurd (hinit k o hg) hni

/-- A batch. -/
theorem batch_between {open_ : List Int} {p0 : Proxy V (Table V)} {c c' : Collector ω ρ V} {es : List (Event V Unit)}
    (hb : Between cfg n allowed c (es.flatMap Event.steps) open_) (hl : Life cfg.proxy p0 es c.proxy) {rows : List ω}
    {ds : Nat → Draw ω α ρ} (hd : ∀ i, allowed (ds i).world) (hs : beginBatch cfg rows ds c = (c', .ok ())) :
    (∃ open', Between cfg n allowed c' ((es ++ batchEvents cfg rows ds c).flatMap Event.steps) open') ∧
      Life cfg.proxy p0 (es ++ batchEvents cfg rows ds c) c'.proxy ∧
      (later ((batchEvents cfg rows ds c).flatMap Event.steps)).length = n * cfg.sched (c.counter + 1) := by
  unfold beginBatch at hs
  rw [Res.andThen_eq_ok] at hs
  obtain ⟨c1, _, hu, hs⟩ := hs
  have hu1 : c1 = (updateRolloutSize cfg c).1 := by rw [hu]
  obtain ⟨t1, hc1, hl1⟩ : ∃ t1 : Table V, c1 = ⟨c.env, { c.proxy with table := t1 }, c.obs, cfg.sched (c.counter + 1), c.counter + 1⟩ ∧
      Life cfg.proxy p0 (es ++ (if c.lenRollout ≠ cfg.sched (c.counter + 1) then
        [Event.resize ((cfg.sched (c.counter + 1) : Int) * c.env.numEnvs * cfg.retain)] else [])) { c.proxy with table := t1 } := by
    unfold updateRolloutSize at hu
    simp only at hu
    split at hu
    · next hne =>
      obtain ⟨t1, hr⟩ : ∃ t1, Table.resize c.proxy.table ((cfg.sched (c.counter + 1) : Int) * c.env.numEnvs * cfg.retain) = (t1, .ok ()) := by
        refine ⟨(Table.resize c.proxy.table ((cfg.sched (c.counter + 1) : Int) * c.env.numEnvs * cfg.retain)).1, Prod.ext rfl ?_⟩
        have := congrArg Prod.snd hu
        simpa using this
      rw [hr] at hu
      have := congrArg Prod.fst hu
      refine ⟨t1, this.symm, ?_⟩
      rw [if_pos hne]
      exact Life.resize hl hr
    · next hne =>
      simp only [Prod.mk.injEq, and_true] at hu
      refine ⟨c.proxy.table, ?_, ?_⟩
      · rw [← hu]
        rw [← show c.lenRollout = cfg.sched (c.counter + 1) by simpa using hne]
      · rw [if_neg hne, List.append_nil]
        exact hl
  have hne1 : c1.env = c.env := by rw [hc1]
  have hlen1 : c1.lenRollout = cfg.sched (c.counter + 1) := by rw [hc1]
  split at hs
  · simp at hs
  · next env obs hr =>
    rw [hne1, hlen1] at hr
    have hstart : started cfg rows c = { c1 with env := env, obs := obs } := by
      simp only [started, ← hu1, hne1, hlen1, hr]
    have hsteps : (es ++ (if c.lenRollout ≠ cfg.sched (c.counter + 1) then
        [Event.resize ((cfg.sched (c.counter + 1) : Int) * c.env.numEnvs * cfg.retain)] else [])).flatMap Event.steps
        = es.flatMap Event.steps := by
      rw [List.flatMap_append]
      split <;> simp [Event.steps]
    have hm := start_mid hb hr c1.proxy c1.lenRollout c1.counter
    rw [← hsteps] at hm
    have hp1 : c1.proxy = { c.proxy with table := t1 } := by rw [hc1]
    rw [hlen1] at hs
    obtain ⟨new, h1, h2, h3, h4, h5, h6, h7, h8⟩ := samples (cfg := cfg) hb.nodup ((List.range (cfg.sched (c.counter + 1) + 1)).map ds)
      hm (by rw [hp1]; exact hl1) (by simp) (Nat.zero_le _) (fun d hd' => by
        obtain ⟨i, -, rfl⟩ := List.mem_map.1 hd'
        exact hd i) (by rw [hlen1]; exact hs)
    have hbe : batchEvents cfg rows ds c = (if c.lenRollout ≠ cfg.sched (c.counter + 1) then
        [Event.resize ((cfg.sched (c.counter + 1) : Int) * c.env.numEnvs * cfg.retain)] else []) ++
        sampleEvents cfg ((List.range (cfg.sched (c.counter + 1) + 1)).map ds) { c1 with env := env, obs := obs } := by
      rw [batchEvents, hstart]
    rw [hbe, ← List.append_assoc]
    refine ⟨⟨open_ ++ new, { toBase := h5, nodup := h2, length := ?_, opens := h3, idle := h4 }⟩, h6, ?_⟩
    · rw [List.length_append, hb.length, h1, h7, hc1]
      simp only [Nat.mul_add, Nat.mul_one]
    · rw [List.flatMap_append, later_append]
      have : ((if c.lenRollout ≠ cfg.sched (c.counter + 1) then
        [Event.resize ((cfg.sched (c.counter + 1) : Int) * c.env.numEnvs * cfg.retain)] else []) : List (Event V Unit)).flatMap Event.steps = [] := by
        split <;> simp [Event.steps]
      rw [this]
      simpa [later] using h8

theorem runs_between {t0 : Table V} {first : Nat} {es : List (Event V Unit)} {c : Collector ω ρ V}
    (hr : Runs cfg n t0 first allowed es c) :
    (∃ open_, Between cfg n allowed c (es.flatMap Event.steps) open_) ∧ Life cfg.proxy (Proxy.new t0) es c.proxy := by
  induction hr with
  | new =>
    refine ⟨⟨[], ⟨inv_new n, rfl, ⟨by simp, fun pre s post e => by simp at e⟩, by simp, fun pre s post e => by simp at e, ?_, fun pre s post e => by simp at e⟩,
      List.nodup_nil, by simp [Collector.new], fun a => by simp [ongoing], by simp⟩, Life.nil⟩
    rintro s s' ⟨pre, mid, post, e, -⟩
    simp at e
  | batch _ hd hs ih =>
    obtain ⟨⟨o, hb⟩, hl⟩ := ih
    obtain ⟨h1, h2, -⟩ := batch_between hb hl hd hs
    exact ⟨h1, h2⟩
  | sample _ hs hne ih =>
    obtain ⟨⟨o, hb⟩, hl⟩ := ih
    refine ⟨⟨o, ?_⟩, Life.sample hl hs hne⟩
    rw [List.flatMap_append]
    simp only [List.flatMap_cons, List.flatMap_nil, Event.steps, List.append_nil]
    exact { inv := hb.inv, num := hb.num, env := hb.env, old := hb.old, once := hb.once, genuine := hb.genuine, begun := hb.begun,
            nodup := hb.nodup, length := hb.length, opens := hb.opens, idle := hb.idle }

theorem ids_nodup {c : Collector ω ρ V} {h : List (Step V Unit)} (hb : Base cfg n allowed c h) :
    ((delivered cfg.proxy [] h).map fun x => Table.wrapId x.1).Nodup := by
  have key : ∀ (past l : List (Step V Unit)), (∀ pre s post, past ++ l = pre ++ s :: post → s.ends = true → ∀ x ∈ post, x.agent ≠ s.agent) →
      (∀ s ∈ l, ∃ k : Nat, s.agent = k) →
      ((delivered cfg.proxy past l).map fun x => Table.wrapId x.1).Nodup ∧
        ∀ x ∈ delivered cfg.proxy past l, ∃ s ∈ l, s.agent = x.1 := by
    intro past l
    induction l generalizing past with
    | nil => simp [delivered]
    | cons s l ih =>
      intro h1 h2
      obtain ⟨i1, i2⟩ := ih (past ++ [s]) (by simpa using h1) fun x hx => h2 x (by simp [hx])
      rw [delivered]
      split
      · next hc =>
        simp only [Bool.and_eq_true] at hc
        refine ⟨?_, ?_⟩
        · simp only [List.cons_append, List.nil_append, List.map_cons, List.nodup_cons]
          refine ⟨fun hm => ?_, i1⟩
          obtain ⟨x, hx, he⟩ := List.mem_map.1 hm
          obtain ⟨s', hs', hag⟩ := i2 x hx
          refine h1 past s l rfl hc.1.1 s' hs' ?_
          obtain ⟨k, hk⟩ := h2 s (by simp)
          obtain ⟨k', hk'⟩ := h2 s' (by simp [hs'])
          rw [← hag] at he
          simp only [Table.wrapId, hk, hk'] at he
          rw [if_neg (by omega), if_neg (by omega)] at he
          rw [hk, hk', he]
        · intro x hx
          simp only [List.cons_append, List.nil_append, List.mem_cons] at hx
          rcases hx with rfl | hx
          · exact ⟨s, by simp, rfl⟩
          · obtain ⟨s', hs', hag⟩ := i2 x hx
            exact ⟨s', by simp [hs'], hag⟩
      · refine ⟨by simpa using i1, fun x hx => ?_⟩
        obtain ⟨s', hs', hag⟩ := i2 x (by simpa using hx)
        exact ⟨s', by simp [hs'], hag⟩
  exact (key [] h (by simpa using hb.once) fun s hs => by
    obtain ⟨k, hk, -⟩ := hb.old s hs
    exact ⟨k, hk⟩).1

/-! ## How much a batch stores -/

/-- Transitions of episodes. -/
def transitions (l : List (Int × List (Step V Unit))) : Nat := (l.map fun x => x.2.length - 1).sum

theorem transitions_append (a b : List (Int × List (Step V Unit))) :
    transitions (a ++ b) = transitions a + transitions b := by
  simp [transitions]

theorem later_ongoing {h : List (Step V Unit)} (hE : Environment [cfg.key] h) (a : Int) :
    (later (ongoing a h)).length = (ongoing a h).length - 1 := by
  induction h using snocInduction with
  | nil => rfl
  | snoc h x ih =>
    by_cases hag : x.agent = a
    · cases he : x.ends with
      | true => rw [ongoing_snoc_ends _ hag he]; rfl
      | false =>
        rw [ongoing_snoc _ hag he, later_append, List.length_append, List.length_append, ih hE.prefix]
        have hst := hE.starts h x [] rfl
        rw [hag] at hst
        by_cases h0 : ongoing a h = []
        · have hi := hst.2 ⟨h0, he⟩
          simp [h0, later, hi]
        · have hi : x.obs.state ≠ .initial := fun hi => h0 (hst.1 hi).1
          have := List.length_pos_iff.2 h0
          simp [later, hi]
          omega
    · rw [ongoing_snoc_other _ hag]
      exact ih hE.prefix

theorem sum_update (as : List Int) (hnd : as.Nodup) {a : Int} (ha : a ∈ as) (f g : Int → Nat) (hfg : ∀ b, b ≠ a → f b = g b) :
    (as.map f).sum + g a = (as.map g).sum + f a := by
  induction as with
  | nil => cases ha
  | cons b as ih =>
    simp only [List.map_cons, List.sum_cons]
    rw [List.nodup_cons] at hnd
    by_cases hb : b = a
    · subst hb
      have : as.map f = as.map g := List.map_congr_left fun x hx => hfg x (by rintro rfl; exact hnd.1 hx)
      rw [this]
      omega
    · have := ih hnd.2 (by simpa [Ne.symm hb] using ha)
      have := hfg b hb
      omega

/-- The steps are those of the delivered episodes and of the open ones. -/
theorem later_delivered (hmin : cfg.proxy.minLength = none) (as : List Int) (hnd : as.Nodup) {h : List (Step V Unit)}
    (hE : Environment [cfg.key] h) (hbegun : ∀ pre s post, h = pre ++ s :: post → s.obs.state ≠ .initial → ongoing s.agent pre ≠ [])
    (has : ∀ s ∈ h, s.agent ∈ as) :
    (later h).length = transitions (delivered cfg.proxy [] h) + (as.map fun a => (later (ongoing a h)).length).sum := by
  induction h using snocInduction with
  | nil => simp [later, transitions, delivered, ongoing]
  | snoc h x ih =>
    have ih := ih hE.prefix (fun pre s post e => hbegun pre s (post ++ [x]) (by rw [e]; simp)) fun s hs => has s (by simp [hs])
    have hx : delivered cfg.proxy h [x] = if x.ends && !(ongoing x.agent h).isEmpty then [(x.agent, ongoing x.agent h ++ [x])] else [] := by
      simp [delivered, longEnough, hmin]
    have hst := hE.starts h x [] rfl
    have hsum := sum_update as hnd (has x (by simp)) (fun a => (later (ongoing a (h ++ [x]))).length)
      (fun a => (later (ongoing a h)).length) fun b hb => by
        rw [ongoing_snoc_other _ (Ne.symm hb)]
    rw [delivered_append, List.nil_append, transitions_append, hx, later_append, List.length_append, ih]
    cases he : x.ends with
    | false =>
      rw [ongoing_snoc _ rfl he, later_append, List.length_append] at hsum
      rw [if_neg (by simp)]
      have : transitions ([] : List (Int × List (Step V Unit))) = 0 := rfl
      omega
    | true =>
      have hni : x.obs.state ≠ .initial := fun hi => by
        have := (hst.1 hi).2
        rw [he] at this
        cases this
      have hne := hbegun h x [] rfl hni
      rw [ongoing_snoc_ends _ rfl he, later_ongoing (cfg := cfg) hE.prefix] at hsum
      rw [if_pos (by simp [hne])]
      have h1 : (later [x]).length = 1 := by simp [later, hni]
      have h2 : transitions [(x.agent, ongoing x.agent h ++ [x])] = (ongoing x.agent h).length := by simp [transitions]
      have h3 : (later ([] : List (Step V Unit))).length = 0 := rfl
      have := List.length_pos_iff.2 hne
      omega

theorem between_delivered (hmin : cfg.proxy.minLength = none) {c : Collector ω ρ V} {h : List (Step V Unit)} {open_ : List Int}
    (hb : Between cfg n allowed c h open_) : (later h).length = transitions (delivered cfg.proxy [] h) := by
  classical
  have h1 := later_delivered hmin ((h.map Step.agent).dedup) (List.nodup_dedup _) hb.env hb.begun fun s hs => by
    rw [List.mem_dedup]
    exact List.mem_map.2 ⟨s, hs, rfl⟩
  rw [h1]
  have : ((h.map Step.agent).dedup.map fun a => (later (ongoing a h)).length).sum = 0 := by
    have hz : ∀ a, (later (ongoing a h)).length = 0 := by
      intro a
      rw [List.length_eq_zero_iff]
      refine List.filter_eq_nil_iff.2 fun s hs => ?_
      have := hb.idle a ((hb.opens a).1 (List.ne_nil_of_mem hs)) s hs
      simp [this]
    simp [hz]
  omega

/-- **C106** A batch with rollout length `L` delivers `n * L` transitions to the memory, whenever episodes end within it. -/
theorem C106_batch (hmin : cfg.proxy.minLength = none) {t0 : Table V} {first : Nat} {es : List (Event V Unit)}
    {c c' : Collector ω ρ V} (hr : Runs cfg n t0 first allowed es c) {rows : List ω} {ds : Nat → Draw ω α ρ}
    (hd : ∀ i, allowed (ds i).world) (hs : beginBatch cfg rows ds c = (c', .ok ())) :
    transitions (delivered cfg.proxy (es.flatMap Event.steps) ((batchEvents cfg rows ds c).flatMap Event.steps)) =
      n * cfg.sched (c.counter + 1) := by
  obtain ⟨⟨o, hb⟩, hl⟩ := runs_between hr
  obtain ⟨⟨o', hb'⟩, -, h3⟩ := batch_between hb hl hd hs
  have e1 := between_delivered hmin hb
  have e2 := between_delivered hmin hb'
  rw [List.flatMap_append, later_append, List.length_append, delivered_append, List.nil_append, transitions_append] at e2
  omega

/-! ## Batches succeed -/

theorem step_ok {e : Env ω} (hi : MEnv.Inv e) {cur : List ω} (hc : e.current = some cur) (hlen : cur.length = e.numEnvs)
    (hn : 0 < e.numEnvs) (w : World ω α ρ) {actions : Dict Nat α} (h : ∀ id ∈ e.ids, id ∈ Dict.keys actions) :
    ∃ env next, e.dictStep w actions = (env, .ok next) := by
  obtain ⟨as, has⟩ := collect_of actions e.ids h
  have hl := (collect_ok _ _ _ has).1
  obtain ⟨i, hi1, -⟩ := hi.sizes cur hc
  have hlen' := hi.length
  unfold Env.dictStep
  simp only [has, hc, hi1]
  rw [if_neg (by omega), if_pos (by omega)]
  exact ⟨_, _, rfl⟩

theorem capacity {keys : List String} {t0 : Table V} {maxlen : Int}
    (hnames : ((Builder.columns false cfg.proxy.useTerminal keys).map Column.name).Nodup) (hlk : cfg.proxy.lengthKey = "actions")
    (hc : Created (Builder.columns false cfg.proxy.useTerminal keys) maxlen "actions" t0) {es : List (Event V Unit)}
    {p p' : Proxy V (Table V)} (hl : Life cfg.proxy (Proxy.new t0) es p) {x : Spec.Call V Unit} {draws : Int → List Nat}
    (hl' : Life cfg.proxy (Proxy.new t0) (es ++ [.add x draws]) p')
    (hE : Environment keys ((es ++ [Event.add x draws]).flatMap Event.steps))
    (hids : ((delivered cfg.proxy [] ((es ++ [Event.add x draws]).flatMap Event.steps)).map fun x => Table.wrapId x.1).Nodup) :
    p'.table.maxlen = p.table.maxlen := by
  have hE0 : Environment keys (es.flatMap Event.steps) := by
    rw [List.flatMap_append] at hE
    exact hE.prefix
  have hids0 : ((delivered cfg.proxy [] (es.flatMap Event.steps)).map fun x => Table.wrapId x.1).Nodup := by
    rw [List.flatMap_append, delivered_append, List.map_append] at hids
    exact (List.nodup_append.1 hids).1
  obtain ⟨-, ops, r1, a1⟩ := life_run hnames rfl hlk hc hl hE0 hids0
  obtain ⟨-, ops', r2, a2⟩ := life_run hnames rfl hlk hc hl' hE hids
  rw [(C01_size_le_capacity hc r1).2.2, (C01_size_le_capacity hc r2).2.2, a1, a2, eventActs_append]
  unfold queueAfter
  rw [List.foldl_append]
  generalize (eventActs cfg.proxy [] es).foldl queueStep (maxlen, []) = q
  simp only [eventActs, List.append_nil]
  generalize delivered cfg.proxy ([] ++ es.flatMap Event.steps) x.steps = l
  induction l generalizing q with
  | nil => rfl
  | cons y l ih => rw [List.map_cons, List.foldl_cons, ih]; rfl

theorem sample_ok {open_ : List Int} {d : Draw ω α ρ} {c : Collector ω ρ V} {es : List (Event V Unit)} {j len : Nat}
    (hm : Mid cfg n allowed open_ c (es.flatMap Event.steps) j len) (hj : j ≤ len) (hn : 0 < n)
    (hcur : ∃ cur, c.env.current = some cur ∧ cur.length = n) {t0 : Table V} {maxlen : Int}
    (hnames : ((Builder.columns false cfg.proxy.useTerminal [cfg.key]).map Column.name).Nodup) (hlk : cfg.proxy.lengthKey = "actions")
    (hc : Created (Builder.columns false cfg.proxy.useTerminal [cfg.key]) maxlen "actions" t0) {f : Fifo} (hf : t0.ejector = .fifo f)
    (hl : Life cfg.proxy (Proxy.new t0) es c.proxy) (hcap : (len : Int) ≤ c.proxy.table.maxlen) :
    ∃ c', collectSample cfg d c = (c', .ok ()) ∧ (∃ cur, c'.env.current = some cur ∧ cur.length = n) ∧
      c'.proxy.table.maxlen = c.proxy.table.maxlen := by
  obtain ⟨cur, hc1, hc2⟩ := hcur
  obtain ⟨env, next, he⟩ := step_ok hm.inv hc1 (hc2.trans hm.num.symm) (by rw [hm.num]; exact hn) d.world
    (actions := answers d.act c.obs) fun id hid => by
      obtain ⟨o, h1, h2⟩ := (live_mem hm id).1 hid
      refine Dict.mem_keys_of_get? (v := d.act id o.data) ?_
      rw [get?_answers _ _ hm.nodup _ _ (Dict.mem_of_get? h1), if_pos h2]
  have hb := sample_base hm hj he c.proxy
  have hev : (es ++ [Event.add (call cfg d c) d.draws]).flatMap Event.steps = es.flatMap Event.steps ++ (call cfg d c).steps := by
    simp [Event.steps]
  rw [← hev] at hb
  obtain ⟨p', hadd, hl'⟩ := C77_accepts hnames rfl hlk hc hf hl (call_wf cfg d c hm.nodup) d.draws hb.env (ids_nodup hb) (by
    intro x hx
    have : ∀ (past l : List (Step V Unit)), x ∈ delivered cfg.proxy past l → ∃ pre s post, l = pre ++ s :: post ∧
        x = (s.agent, ongoing s.agent (past ++ pre) ++ [s]) := by
      intro past l
      induction l generalizing past with
      | nil => simp [delivered]
      | cons s l ih =>
        intro hx
        rw [delivered] at hx
        rcases List.mem_append.1 hx with hx | hx
        · split at hx
          · rw [List.mem_singleton] at hx
            exact ⟨[], s, l, rfl, by simpa using hx⟩
          · cases hx
        · obtain ⟨pre, s', post, e1, e2⟩ := ih _ hx
          exact ⟨s :: pre, s', post, by rw [e1]; rfl, by simpa using e2⟩
    obtain ⟨pre, s, post, e1, rfl⟩ := this _ _ hx
    rw [call_steps cfg d c hm.nodup] at e1
    obtain ⟨l1, l', g1, g2, g3⟩ := List.map_eq_append_iff.1 e1
    obtain ⟨q, l2, g4, g5, g6⟩ := List.map_eq_cons_iff.1 g3
    subst g2 g5
    have ho : ongoing (stepOf cfg d.act q).agent (es.flatMap Event.steps ++ l1.map (stepOf cfg d.act)) =
        ongoing (q.1 : Int) (es.flatMap Event.steps) :=
      ongoing_append_other _ _ (others cfg hm.nodup (by rw [g1, g4])).1
    have hs := hm.short q.1 q.2 (Dict.get?_of_mem hm.nodup (by rw [g1, g4]; simp))
    simp only [ho, List.length_append, List.length_singleton]
    omega)
  have hmax := capacity hnames hlk hc hl hl' hb.env (ids_nodup hb)
  have hst := step_spec c.env env hm.inv d.world _ next he
  refine ⟨{ c with env := env, proxy := p', obs := next }, ?_, ?_, hmax⟩
  · unfold collectSample
    simp only [he]
    simp only [call] at hadd
    rw [hadd]
  · obtain ⟨cur', h1, h2⟩ := hst.ready'
    exact ⟨cur', h1, h2.trans hm.num⟩

theorem samples_ok {open_ : List Int} (ds : List (Draw ω α ρ)) {c : Collector ω ρ V} {es : List (Event V Unit)} {j len : Nat}
    (hm : Mid cfg n allowed open_ c (es.flatMap Event.steps) j len) (hj : j + ds.length = len + 1) (hn : 0 < n)
    (hd : ∀ d ∈ ds, allowed d.world)
    (hcur : ∃ cur, c.env.current = some cur ∧ cur.length = n) {t0 : Table V} {maxlen : Int}
    (hnames : ((Builder.columns false cfg.proxy.useTerminal [cfg.key]).map Column.name).Nodup) (hlk : cfg.proxy.lengthKey = "actions")
    (hc : Created (Builder.columns false cfg.proxy.useTerminal [cfg.key]) maxlen "actions" t0) {f : Fifo} (hf : t0.ejector = .fifo f)
    (hl : Life cfg.proxy (Proxy.new t0) es c.proxy) (hcap : (len : Int) ≤ c.proxy.table.maxlen) :
    ∃ c', Res.forEach ds (collectSample cfg) c = (c', .ok ()) ∧ c'.proxy.table.maxlen = c.proxy.table.maxlen ∧
      c'.counter = c.counter ∧ c'.lenRollout = c.lenRollout := by
  induction ds generalizing j c es with
  | nil => exact ⟨c, rfl, rfl, rfl, rfl⟩
  | cons d ds ih =>
    simp only [List.length_cons] at hj
    obtain ⟨c1, hs, hcur1, hmax1⟩ := sample_ok (d := d) hm (by omega) hn hcur hnames hlk hc hf hl hcap
    obtain ⟨hk1, hk2⟩ := sample_same hs
    cases ds with
    | nil => exact ⟨c1, by simp [Res.forEach, hs, Res.andThen_ok], hmax1, hk1, hk2⟩
    | cons d' ds =>
      simp only [List.length_cons] at hj
      have hev : (es ++ [Event.add (call cfg d c) d.draws]).flatMap Event.steps = es.flatMap Event.steps ++ (call cfg d c).steps := by
        simp [Event.steps]
      have hm1 : Mid cfg n allowed open_ c1 ((es ++ [Event.add (call cfg d c) d.draws]).flatMap Event.steps) (j + 1) len := by
        obtain ⟨env, next, p, he, -, rfl⟩ := collect_ok_iff hs
        rw [hev]
        exact sample_mid hm (by omega) (hd d (by simp)) he p
      have hl1 : Life cfg.proxy (Proxy.new t0) (es ++ [Event.add (call cfg d c) d.draws]) c1.proxy := by
        obtain ⟨env, next, p, -, hp, rfl⟩ := collect_ok_iff hs
        exact Life.add hl (call_wf cfg d c hm.nodup) hp
      obtain ⟨c', h1, h2, h3, h4⟩ := ih hm1 (by simp only [List.length_cons]; omega) (fun x hx => hd x (by simp [hx])) hcur1 hl1
        (by rw [hmax1]; exact hcap)
      refine ⟨c', ?_, h2.trans hmax1, h3.trans hk1, h4.trans hk2⟩
      rw [Res.forEach, hs, Res.andThen_ok, h1]

/-- **C106** (batches succeed) With FIFO ejection and one observation for each environment, a batch always returns
normally if the memory is large enough for an episode, and the new capacity is not below the old one if the rollout
length changes. -/
theorem C106_accepts {t0 : Table V} {maxlen : Int} {first : Nat}
    (hnames : ((Builder.columns false cfg.proxy.useTerminal [cfg.key]).map Column.name).Nodup) (hlk : cfg.proxy.lengthKey = "actions")
    (hc : Created (Builder.columns false cfg.proxy.useTerminal [cfg.key]) maxlen "actions" t0) {f : Fifo} (hf : t0.ejector = .fifo f)
    (hn : 0 < n) {es : List (Event V Unit)} {c : Collector ω ρ V} (hr : Runs cfg n t0 first allowed es c) {rows : List ω}
    (hrows : rows.length = n) {ds : Nat → Draw ω α ρ} (hd : ∀ i, allowed (ds i).world)
    (hcap : let len := cfg.sched (c.counter + 1)
      (len = c.lenRollout ∧ (len : Int) ≤ c.proxy.table.maxlen) ∨
      (len ≠ c.lenRollout ∧ c.proxy.table.maxlen ≤ (len : Int) * n * cfg.retain ∧ (len : Int) ≤ (len : Int) * n * cfg.retain)) :
    ∃ c', beginBatch cfg rows ds c = (c', .ok ()) ∧ c'.counter = c.counter + 1 ∧ c'.lenRollout = cfg.sched (c.counter + 1) ∧
      c'.proxy.table.maxlen = if cfg.sched (c.counter + 1) = c.lenRollout then c.proxy.table.maxlen
        else (cfg.sched (c.counter + 1) : Int) * n * cfg.retain := by
  obtain ⟨⟨o, hb⟩, hl⟩ := runs_between hr
  obtain ⟨t1, hu, hl1, hmax, hcap1⟩ : ∃ t1 : Table V, updateRolloutSize cfg c =
        (⟨c.env, { c.proxy with table := t1 }, c.obs, cfg.sched (c.counter + 1), c.counter + 1⟩, .ok ()) ∧
      (∃ es', es'.flatMap Event.steps = es.flatMap Event.steps ∧
        Life cfg.proxy (Proxy.new t0) es' ({ c.proxy with table := t1 } : Proxy V (Table V))) ∧
      t1.maxlen = (if cfg.sched (c.counter + 1) = c.lenRollout then c.proxy.table.maxlen
        else (cfg.sched (c.counter + 1) : Int) * n * cfg.retain) ∧ (cfg.sched (c.counter + 1) : Int) ≤ t1.maxlen := by
    simp only at hcap
    unfold updateRolloutSize
    rcases hcap with ⟨h1, h2⟩ | ⟨h1, h2, h3⟩
    · refine ⟨c.proxy.table, ?_, ⟨es, rfl, hl⟩, by rw [if_pos h1], h2⟩
      simp only [h1]
      rw [if_neg (by simp)]
    · have hres : Table.resize c.proxy.table ((cfg.sched (c.counter + 1) : Int) * c.env.numEnvs * cfg.retain) =
          ({ c.proxy.table with maxlen := (cfg.sched (c.counter + 1) : Int) * n * cfg.retain }, .ok ()) := by
        unfold Table.resize
        rw [hb.num, if_neg (by omega)]
      refine ⟨{ c.proxy.table with maxlen := (cfg.sched (c.counter + 1) : Int) * n * cfg.retain }, ?_,
        ⟨es ++ [.resize ((cfg.sched (c.counter + 1) : Int) * c.env.numEnvs * cfg.retain)], by simp [Event.steps],
          Life.resize hl hres⟩, by rw [if_neg h1], h3⟩
      simp only
      rw [if_pos (Ne.symm h1), hres]
      rfl
  obtain ⟨es', hes, hl1⟩ := hl1
  rcases hreset : (c.env.dictReset (ρ := ρ) rows (cfg.sched (c.counter + 1))) with ⟨env, res⟩
  have hs := reset_spec c.env env rows _ _ hreset
  obtain ⟨obs, rfl⟩ := hs.ok (by rw [hb.num]; omega)
  have hm := start_mid hb hreset { c.proxy with table := t1 } (cfg.sched (c.counter + 1)) (c.counter + 1)
  rw [← hes] at hm
  obtain ⟨c', h1, h2, h3, h4⟩ := samples_ok ((List.range (cfg.sched (c.counter + 1) + 1)).map ds) hm (by simp) hn
    (fun d hd' => by
      obtain ⟨i, -, rfl⟩ := List.mem_map.1 hd'
      exact hd i) ⟨rows, hs.current.1, hrows⟩ hnames hlk hc hf hl1 hcap1
  refine ⟨c', ?_, h3, h4, h2.trans hmax⟩
  unfold beginBatch
  rw [hu, Res.andThen_ok]
  simp only [hreset]
  exact h1

/-! ## What stays in the proxy -/

/-- **C107** After any number of batches, the proxy keeps `n` unfinished episodes for every batch. -/
theorem C107_kept {t0 : Table V} {maxlen : Int} {first : Nat}
    (hnames : ((Builder.columns false cfg.proxy.useTerminal [cfg.key]).map Column.name).Nodup) (hlk : cfg.proxy.lengthKey = "actions")
    (hc : Created (Builder.columns false cfg.proxy.useTerminal [cfg.key]) maxlen "actions" t0)
    {es : List (Event V Unit)} {c : Collector ω ρ V} (hr : Runs cfg n t0 first allowed es c) :
    c.proxy.store.keys.length = n * c.counter := by
  obtain ⟨⟨o, hb⟩, hl⟩ := runs_between hr
  obtain ⟨hinv, -⟩ := life_run hnames rfl hlk hc hl hb.env (ids_nodup hb.toBase)
  rw [← hb.length]
  refine List.Perm.length_eq ((List.perm_ext_iff_of_nodup hinv.nodup hb.nodup).2 fun a => ?_)
  rw [← hb.opens a]
  constructor
  · intro ha
    obtain ⟨ep, hep⟩ := Dict.get?_isSome_of_mem ha
    exact (hinv.some a ep hep).1
  · intro hne
    by_contra ha
    exact hne (hinv.none a (Dict.get?_none_iff.2 ha))

/-! ## Genuine transitions -/

/-- What the memory gets is the stream of an environment, in which no agent ends two episodes. -/
theorem C94_environment {t0 : Table V} {first : Nat} {es : List (Event V Unit)} {c : Collector ω ρ V}
    (hr : Runs cfg n t0 first allowed es c) :
    Environment [cfg.key] (es.flatMap Event.steps) ∧
      ((delivered cfg.proxy [] (es.flatMap Event.steps)).map fun x => Table.wrapId x.1).Nodup := by
  obtain ⟨⟨o, hb⟩, -⟩ := runs_between hr
  exact ⟨hb.env, ids_nodup hb.toBase⟩

/-- **C94** for steps that are not the first of an episode, or models whose termination function never fires. -/
theorem C94_partial {t0 : Table V} {first : Nat} {es : List (Event V Unit)} {c : Collector ω ρ V}
    (hr : Runs cfg n t0 first allowed es c) {s s' : Step V Unit} (hcon : Consecutive (es.flatMap Event.steps) s s')
    (h : s.obs.state = .running ∨ NoTerm allowed) : Genuine cfg n allowed s s' := by
  obtain ⟨⟨o, hb⟩, -⟩ := runs_between hr
  exact hb.genuine s s' hcon h

/-- **C94** (end to end) for models whose termination function never fires: every row of every batch that is sampled
from the memory is one that a model predicted: the next observation and the reward are the model's for the
observation and the action. -/
theorem C94_sampled_partial {t0 : Table V} {maxlen : Int} {first : Nat}
    (hnames : ((Builder.columns false cfg.proxy.useTerminal [cfg.key]).map Column.name).Nodup) (hlk : cfg.proxy.lengthKey = "actions")
    (hc : Created (Builder.columns false cfg.proxy.useTerminal [cfg.key]) maxlen "actions" t0)
    {es : List (Event V Unit)} {c : Collector ω ρ V} (hr : Runs cfg n t0 first allowed es c) (hT : NoTerm allowed)
    {count : Nat} {x r : Nat → Nat} {junk : String → Nat → Cell V} {one : V → Bool} {t' : Table V} {b : Batch V}
    (hs : Table.sampleAdapted (Builder.adaptors one cfg.proxy.useTerminal [cfg.key]) count 1 x r junk c.proxy.table = (t', .ok b)) :
    ∃ (o x : Dict String (List (Cell V))) (oc xc act rew : List (Cell V)),
      b.get? "observation" = some (.obs o) ∧ b.get? "next_observation" = some (.obs x) ∧ o.get? cfg.key = some oc ∧
      x.get? cfg.key = some xc ∧ b.get? "actions" = some (.col act) ∧ b.get? "rewards" = some (.col rew) ∧
      ∀ k < count, ∃ w, allowed w ∧ ∃ i < n, ∃ ob a,
        oc[k]? = some (.row (cfg.codec.data ob)) ∧ act[k]? = some (.row (cfg.codec.action a)) ∧
        xc[k]? = some (.row (cfg.codec.data (w.sample i ob a).1)) ∧
        rew[k]? = some (.row (cfg.codec.reward (some (w.sample i ob a).2))) := by
  obtain ⟨hE, hids⟩ := C94_environment hr
  obtain ⟨-, hl⟩ := runs_between hr
  obtain ⟨o, x, act, rew, dn, mk, e1, e2, e3, e4, -, -, e5, e6, -, -, -, -, hrows⟩ :=
    C77_transitions hnames rfl hlk hc hl hE hids (Nat.one_pos) (Or.inl rfl) hs
  obtain ⟨oc, ho⟩ := Dict.get?_isSome_of_mem (d := o) (k := cfg.key) (by rw [e5]; simp)
  obtain ⟨xc, hx⟩ := Dict.get?_isSome_of_mem (d := x) (k := cfg.key) (by rw [e6]; simp)
  refine ⟨o, x, oc, xc, act, rew, e1, e2, ho, hx, e3, e4, fun k hk => ?_⟩
  obtain ⟨run, hlen, -, hrun⟩ := hrows k hk
  obtain ⟨s, s', rfl⟩ := List.length_eq_two.1 hlen
  obtain ⟨hcon, hf, ⟨va, ha, hact⟩, ⟨vr, hr1, hrew⟩, -, -⟩ := hrun 0 s s' rfl rfl
  obtain ⟨col, col', v, v', f1, f2, -, -, f3, f4, f5, f6⟩ := hf cfg.key (by simp)
  obtain ⟨w, hw, i, hi, ob, a, g1, g2, g3, g4⟩ := C94_partial hr hcon (Or.inr hT)
  rw [ho] at f1; cases f1
  rw [hx] at f2; cases f2
  have hv : v = cfg.codec.data ob := by
    rw [g1] at f3
    simpa [Dict.get?] using f3.symm
  have hv' : v' = cfg.codec.data (w.sample i ob a).1 := by
    rw [g3] at f4
    simpa [Dict.get?] using f4.symm
  have hva : va = cfg.codec.action a := by
    unfold Spec.Step.action at ha
    rw [g2] at ha
    simpa [Dict.get?] using ha.symm
  have hvr : vr = cfg.codec.reward (some (w.sample i ob a).2) := by
    rw [g4] at hr1
    simpa [Dict.get?] using hr1.symm
  subst hv hv' hva hvr
  simp only [Nat.mul_one, Nat.add_zero] at f5 f6 hact hrew
  exact ⟨w, hw, i, hi, ob, a, f5, hact, f6, hrew⟩

end

end

/-- **C94**, the claim: from each step of an episode to the next one the model went, asked with what the step shows. -/
def C94_claim : Prop :=
  ∀ (cfg : Config Nat Nat Nat Nat) (n : Nat) (t0 : Table Nat) (maxlen : Int) (first : Nat) (allowed : World Nat Nat Nat → Prop)
    (es : List (Event Nat Unit)) (c : Collector Nat Nat Nat),
    Created (Builder.columns false cfg.proxy.useTerminal [cfg.key]) maxlen "actions" t0 → Runs cfg n t0 first allowed es c →
    ∀ s s', Consecutive (es.flatMap Event.steps) s s' → Genuine cfg n allowed s s'

/-- **C107**, the claim: the number of unfinished episodes in the proxy is bounded. -/
def C107_claim : Prop :=
  ∀ (cfg : Config Nat Nat Nat Nat) (n : Nat) (t0 : Table Nat) (maxlen : Int) (first : Nat),
    Created (Builder.columns false cfg.proxy.useTerminal [cfg.key]) maxlen "actions" t0 →
    ∃ bound, ∀ es c, Runs cfg n t0 first (fun _ => True) es c → c.proxy.store.keys.length ≤ bound

namespace Ex

def cfg : Config Nat Nat Nat Nat :=
  ⟨⟨id, fun r => r.getD 0, id⟩, "pos", ⟨none, "actions", false, fun b => if b then 1 else 0⟩, fun _ => 3, 10⟩

def t0 : Table Nat := (Table.new (Builder.columns false false ["pos"]) 60 (.uniform {}) (.fifo {}) "actions").1

theorem created : Created (Builder.columns false false ["pos"]) 60 "actions" t0 :=
  ⟨by decide, _, _, .uniform, .fifo true true, Prod.ext rfl (by decide +kernel)⟩

/-- The model adds the action, episodes end at 10, and the policy always says 1. -/
def draw : Draw Nat Nat Nat := ⟨counter, fun _ _ => 1, fun _ => []⟩

/-- Two environments, from 9 and from 3. -/
def batch (c : Collector Nat Nat Nat) : Collector Nat Nat Nat := (beginBatch cfg [9, 3] (fun _ => draw) c).1

def new : Collector Nat Nat Nat := Collector.new 2 t0 3

def events : List (Event Nat Unit) := batchEvents cfg [9, 3] (fun _ => draw) new

theorem run : Runs cfg 2 t0 3 (· = counter) events (batch new) :=
  Runs.batch (es := []) (c := new) (rows := [9, 3]) (ds := fun _ => draw) Runs.new (fun _ => rfl) (Prod.ext rfl (by decide +kernel))

def stream : List (Step Nat Unit) := events.flatMap Event.steps

/-- What the memory gets in a batch: agent 4 begins at 9, where agent 2 has begun, and is at 11 after one step. -/
example : stream.map (fun s => (s.agent, s.obs.state, s.obs.arrays, s.resp.isSome)) =
    [(2, .initial, [("pos", 9)], true), (3, .initial, [("pos", 3)], true), (2, .terminal, [("pos", 10)], false),
     (4, .initial, [("pos", 9)], true), (3, .running, [("pos", 4)], true), (4, .running, [("pos", 11)], true),
     (3, .running, [("pos", 5)], true), (4, .interrupted, [("pos", 12)], false), (5, .initial, [("pos", 9)], true),
     (3, .interrupted, [("pos", 6)], false), (6, .initial, [("pos", 3)], true)] := by decide +kernel

end Ex

/-- **C94** is false for the code: when the termination function ends an episode within a rollout, the next one begins
with the initial observation, but the model goes on from where the last one has ended. -/
theorem C94_false : ¬ C94_claim := by
  intro h
  obtain ⟨w, rfl, i, -, o, act, h1, h2, h3, -⟩ := h Ex.cfg 2 Ex.t0 60 3 (· = counter) Ex.events (Ex.batch Ex.new) Ex.created Ex.run
    ⟨4, ⟨[("reward", 0)], .initial, [("pos", 9)], none⟩, some ⟨[("actions", 1)], []⟩⟩
    ⟨4, ⟨[("reward", 1)], .running, [("pos", 11)], none⟩, some ⟨[("actions", 1)], []⟩⟩
    ⟨Ex.stream.take 3, (Ex.stream.drop 4).take 1, Ex.stream.drop 6, rfl, by decide +kernel, rfl, by decide +kernel⟩
  simp only [Ex.cfg, id, List.cons.injEq, Prod.mk.injEq, true_and, and_true] at h1 h3
  simp only [Ex.cfg, id, Option.some.injEq, Response.mk.injEq, List.cons.injEq, Prod.mk.injEq, true_and, and_true] at h2
  simp only [counter] at h3
  omega

namespace Ex

theorem runs (k : Nat) : ∃ es c, Runs cfg 2 t0 3 (fun _ => True) es c ∧ c.counter = k ∧ c.lenRollout = 3 ∧
    c.proxy.table.maxlen = 60 := by
  induction k with
  | zero => exact ⟨[], new, Runs.new, rfl, rfl, by decide +kernel⟩
  | succ k ih =>
    obtain ⟨es, c, hr, h1, h2, h3⟩ := ih
    obtain ⟨c', g1, g2, g3, g4⟩ := C106_accepts (f := {}) (by decide +kernel) rfl created (by decide +kernel) (by decide) hr
      (rows := [9, 3]) rfl (ds := fun _ => draw) (fun _ => trivial) (Or.inl ⟨h2.symm, by rw [h3]; exact (by decide : ((3 : Nat) : Int) ≤ 60)⟩)
    exact ⟨_, c', Runs.batch hr (fun _ => trivial) g1, by rw [g2, h1], g3, by rw [g4, if_pos (show cfg.sched (c.counter + 1) = c.lenRollout from h2.symm), h3]⟩

end Ex

/-- **C107** is false for the code: every batch leaves an unfinished episode for each environment. -/
theorem C107_false : ¬ C107_claim := by
  intro h
  obtain ⟨b, hb⟩ := h Ex.cfg 2 Ex.t0 60 3 Ex.created
  obtain ⟨es, c, hr, h1, -⟩ := Ex.runs (b + 1)
  have h2 := C107_kept (by decide +kernel) rfl Ex.created hr
  have h3 := hb es c hr
  omega

/-- After two batches, the memory has 12 transitions and the proxy has four unfinished episodes. -/
example : (Ex.batch (Ex.batch Ex.new)).proxy.table.size = 12 ∧
    (Ex.batch (Ex.batch Ex.new)).proxy.store.keys = [5, 6, 12, 13] := by decide +kernel

/-- A schedule that makes rollouts shorter does not work. -/
example : (beginBatch { Ex.cfg with sched := fun _ => 2 } [9, 3] (fun _ => Ex.draw) Ex.new).2 = .error .valueError := by
  decide +kernel

example := C106_batch (by rfl) Ex.run (rows := [9, 3]) (ds := fun _ => Ex.draw) (fun _ => rfl) (c' := Ex.batch (Ex.batch Ex.new))
  (Prod.ext rfl (by decide +kernel))

/-- A model without ends of episodes. -/
def Ex.endless : Draw Nat Nat Nat := ⟨⟨fun _ o a => (o + a, 10 * o), fun _ _ => false⟩, fun _ o => o, fun _ => []⟩

def Ex.last : Collector Nat Nat Nat := (beginBatch Ex.cfg [9, 3] (fun _ => Ex.endless) Ex.new).1

example {t' : Table Nat} {b : Batch Nat} {x r : Nat → Nat} {junk : String → Nat → Cell Nat} {count : Nat}
    (hs : Table.sampleAdapted (Builder.adaptors (· == 1) false ["pos"]) count 1 x r junk Ex.last.proxy.table = (t', .ok b)) :=
  C94_sampled_partial (allowed := (· = Ex.endless.world)) (by decide +kernel) rfl Ex.created
    (Runs.batch (ds := fun _ => Ex.endless) Runs.new (fun _ => rfl) (Prod.ext rfl (by decide +kernel)))
    (fun w hw i o => by subst hw; rfl) hs

example : (Table.sampleAdapted (Builder.adaptors (· == 1) false ["pos"]) 3 1 id id (fun _ _ => .bit false) Ex.last.proxy.table).2.toOption.map
      (fun b => (b.get? "observation", b.get? "actions", b.get? "rewards", b.get? "next_observation")) =
    some (some (.obs [("pos", [.row 9, .row 6, .row 36])]), some (.col [.row 9, .row 6, .row 36]),
      some (.col [.row 90, .row 60, .row 360]), some (.obs [("pos", [.row 18, .row 12, .row 72])])) := by decide +kernel

end Coll

end Verif
