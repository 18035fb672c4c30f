import Verif.Model.GymThreads
import Verif.Props.GymRun

/-!
# C142 - C144: collecting in a thread
-/

namespace Verif.GymThreads

open Verif Verif.Props Verif.Spec Verif.GymRun

variable {V M : Type}

/-! ## Specification -/

/-- Who did something: the trainer called `begin_training`, the collector had a turn, someone sampled or resized the
memory, the trainer called `end_training`, and `end_training` returned. -/
inductive Did where
  | begin_ | turn | sample | resize | stop | ended
  deriving DecidableEq

/-- The main thread is in `begin_training`. -/
def Starting (s : State V M) : Prop :=
  (∃ m, s.loc = .at (.warm m)) ∨ ∃ m next info todo, s.loc = .adding (.warm m) next info todo

/-- What happens to a collector in state `s0`: what was done, in any order that is possible, and the state after it. Agents,
samples, resizes and draws are arbitrary, except that the agent has an action for every agent of the environment that goes
on. -/
inductive Moves (cfg : ProxyCfg V) (k : Codec V) (env : VecEnv V) (n : Nat) (s0 : State V M) : List Did → State V M → Prop where
  | nil : Moves cfg k env n s0 [] s0
  | begin_ {ds s s' agent} (warmup : Nat) : Moves cfg k env n s0 ds s → s.loc = .idle →
      begin_ k env n warmup agent s = .ok s' → Moves cfg k env n s0 (ds ++ [.begin_]) s'
  | turn {ds s s' agent} (draws : List Nat) : Moves cfg k env n s0 ds s →
      (∀ obs resp, s.obs = some obs → agent obs = .ok resp → Answers obs resp) → turn cfg k env agent draws s = .ok s' →
      Moves cfg k env n s0 (ds ++ [.turn]) s'
  | sample {ds s t' count m x r junk y} : Moves cfg k env n s0 ds s →
      Table.sample count m x r junk s.proxy.table = (t', y) → y ≠ .error .overflowError →
      Moves cfg k env n s0 (ds ++ [.sample]) { s with proxy := { s.proxy with table := t' } }
  | resize {ds s t' m} : Moves cfg k env n s0 ds s → Table.resize s.proxy.table m = (t', .ok ()) →
      Moves cfg k env n s0 (ds ++ [.resize]) { s with proxy := { s.proxy with table := t' } }
  | stop {ds s} : Moves cfg k env n s0 ds s → ¬ Starting s → Moves cfg k env n s0 (ds ++ [.stop]) (askToStop s)
  | ended {ds s} : Moves cfg k env n s0 ds s → s.stop = true → s.loc = .over → Moves cfg k env n s0 (ds ++ [.ended]) (joined s)

/-- The life of a new collector with an empty memory. -/
abbrev Life (cfg : ProxyCfg V) (k : Codec V) (env : VecEnv V) (n : Nat) (t0 : Table V) : List Did → State V M → Prop :=
  Moves cfg k env n (.new n t0)

/-- The episodes that were ever added to the table. -/
def Received (cfg : ProxyCfg V) (t0 t : Table V) (eps : List (Int × List (Step V M))) : Prop :=
  ∃ ops, Run t0 ops t ∧ added (acts "actions" ops) = eps.map (asEntry cfg)

/-! ## Proofs -/

section

variable {cfg : ProxyCfg V} {k : Codec V} {env : VecEnv V} {n : Nat} {t0 : Table V}

/-- The observations of the last step of the environment. -/
def State.latest (s : State V M) : Option (Dict Int (Obs V M)) :=
  match s.loc with
  | .adding _ next _ _ => some next
  | _ => s.obs

/-- The episodes on the way to the table. -/
def State.todo (s : State V M) : List (Int × Episode V) :=
  match s.loc with
  | .adding _ _ _ todo => todo
  | _ => []

/-- The environment, the proxy and the table agree on the steps `h`; of the episodes that ended, `done` have been added and
`want` are to follow. -/
structure Agrees (cfg : ProxyCfg V) (k : Codec V) (n : Nat) (t0 : Table V) (s : State V M) (h : List (Step V M))
    (T : Int → Nat × Nat) (done want : List (Int × List (Step V M))) : Prop where
  slots : Slots n s.wrapper
  hist : GymRun.Hist k s.wrapper h T
  latest : (s.latest = none ∧ s.wrapper.log = []) ∨ ∃ obs b, s.latest = some obs ∧ Pending k s.wrapper obs h T ∧
    Full n s.wrapper obs h T b
  proxy : ProxyInv cfg s.proxy h
  received : Received cfg t0 s.proxy.table done
  all : delivered cfg [] h = done ++ want
  todo : List.Forall₂ (fun got want => got.1 = want.1 ∧ Shows cfg got.2 want.2) s.todo want

theorem act_ok {agent : Dict Int (Obs V M) → Except Err (Dict Int (Response V))} {back : Between} {s s' : State V M}
    (h : act cfg k env agent back s = .ok s') : ∃ obs resp w next info p done, s.obs = some obs ∧ agent obs = .ok resp ∧
      dictStep k env resp s.wrapper = .ok (w, next, info) ∧
      Res.forEach obs (Proxy.observe cfg resp) (s.proxy, []) = ((p, done), .ok ()) ∧
      s' = { s with wrapper := w, proxy := p, loc := .adding back next info done } := by
  unfold act at h
  split at h
  · simp at h
  rename_i obs ho
  split at h
  · simp at h
  rename_i resp ha
  split at h
  · simp at h
  rename_i w next info hst
  split at h
  · simp at h
  rename_i p done hf
  simp only [Except.ok.injEq] at h
  exact ⟨obs, resp, w, next, info, p, done, ho, ha, hst, hf, h.symm⟩

theorem act_inv (hwf : env.WF n) {agent : Dict Int (Obs V M) → Except Err (Dict Int (Response V))} {back : Between}
    {s s' : State V M} {h : List (Step V M)} {T : Int → Nat × Nat} {done want : List (Int × List (Step V M))}
    (hI : Agrees cfg k n t0 s h T done want) (hb : ∃ b, s.loc = .at b)
    (hA : ∀ obs resp, s.obs = some obs → agent obs = .ok resp → Answers obs resp)
    (ha : act cfg k env agent back s = .ok s') : ∃ h' T' want', Agrees cfg k n t0 s' h' T' done want' := by
  obtain ⟨obs, resp, w, next, info, p, new, h1, h2, h3, h4, rfl⟩ := act_ok ha
  obtain ⟨b0, hb0⟩ := hb
  have hl : s.latest = some obs := by simp [State.latest, hb0, h1]
  have hw : want = [] := by
    have := hI.todo
    simp only [State.todo, hb0] at this
    cases this
    rfl
  subst hw
  rcases hI.latest with ⟨h5, -⟩ | ⟨obs', b, h5, hP, hF⟩
  · rw [hl] at h5; simp at h5
  rw [hl, Option.some.injEq] at h5
  subst h5
  have hAn := hA _ _ h1 h2
  obtain ⟨batch, out, b1, b2, b3, -⟩ := dictStep_ok hwf hI.slots.idsLen hI.slots.rewLen hI.slots.nodup hI.slots.lt h3
  obtain ⟨g1, g2, g3⟩ := step_hist hI.slots hI.hist hP hAn b1 b3
  have hcw := call_wf hP hAn
  obtain ⟨i, tt, new', e, -, f⟩ := observeAll_ok (c := ⟨obs, resp⟩) hcw obs (fun _ h => h) hcw.agents hI.proxy (by simp) h4
  rw [List.nil_append] at e
  subst e
  refine ⟨h ++ Call.steps ⟨obs, resp⟩, _, delivered cfg h (Call.steps ⟨obs, resp⟩), ⟨g1, g2, Or.inr ⟨next, b, rfl, g3, ?_⟩, ?_, ?_, ?_, ?_⟩⟩
  · exact step_full hI.slots hI.hist hP hF b3
  · exact i
  · show Received cfg t0 p.table done
    rw [tt]
    exact hI.received
  · rw [delivered_append, hI.all]
    simp
  · exact f

theorem turn_inv (hwf : env.WF n) (hlk : cfg.lengthKey = "actions") {nstep : Bool} {maxlen : Int}
    (hc : Created (Builder.columns nstep cfg.useTerminal ["obs"]) maxlen "actions" t0)
    {agent : Dict Int (Obs V M) → Except Err (Dict Int (Response V))} {draws : List Nat}
    {s s' : State V M} {h : List (Step V M)} {T : Int → Nat × Nat} {done want : List (Int × List (Step V M))}
    (hI : Agrees cfg k n t0 s h T done want)
    (hA : ∀ obs resp, s.obs = some obs → agent obs = .ok resp → Answers obs resp)
    (ht : turn cfg k env agent draws s = .ok s') : ∃ h' T' done' want', Agrees cfg k n t0 s' h' T' done' want' := by
  unfold turn at ht
  split at ht
  · simp only [Except.ok.injEq] at ht; exact ⟨h, T, done, want, ht ▸ hI⟩
  · simp only [Except.ok.injEq] at ht; exact ⟨h, T, done, want, ht ▸ hI⟩
  · rename_i hloc
    simp only [Except.ok.injEq] at ht
    subst ht
    refine ⟨h, T, done, want, hI.slots, hI.hist, ?_, hI.proxy, hI.received, hI.all, ?_⟩
    · have := hI.latest
      simpa only [State.latest, hloc] using this
    · have := hI.todo
      simpa only [State.todo, hloc] using this
  · rename_i m hloc
    obtain ⟨h', T', want', hI'⟩ := act_inv hwf hI ⟨_, hloc⟩ hA ht
    exact ⟨h', T', done, want', hI'⟩
  · rename_i hloc
    split at ht
    · simp only [Except.ok.injEq] at ht
      subst ht
      refine ⟨h, T, done, want, hI.slots, hI.hist, ?_, hI.proxy, hI.received, hI.all, ?_⟩
      · have := hI.latest
        simpa only [State.latest, hloc] using this
      · have := hI.todo
        simpa only [State.todo, hloc] using this
    · obtain ⟨h', T', want', hI'⟩ := act_inv hwf hI ⟨_, hloc⟩ hA ht
      exact ⟨h', T', done, want', hI'⟩
  · rename_i b next info hloc
    simp only [Except.ok.injEq] at ht
    subst ht
    refine ⟨h, T, done, want, hI.slots, hI.hist, ?_, hI.proxy, hI.received, hI.all, ?_⟩
    · have := hI.latest
      simpa only [State.latest, hloc] using this
    · have := hI.todo
      simpa only [State.todo, hloc] using this
  · rename_i b next info a ep todo hloc
    split at ht
    · simp at ht
    rename_i t hadd
    simp only [Except.ok.injEq] at ht
    subst ht
    have htodo := hI.todo
    simp only [State.todo, hloc] at htodo
    cases htodo with
    | @cons _ w _ want hgw hrest =>
    obtain ⟨wa, ss⟩ := w
    obtain ⟨rfl, hsh⟩ : a = wa ∧ Shows cfg ep ss := hgw
    obtain ⟨ops, hr, hacts⟩ := hI.received
    have hE := (delivered_ended (hist_environment hI.hist) (a := a) (ss := ss) (cfg := cfg) (by rw [hI.all]; simp)).1
    have hfresh := hist_ids (cfg := cfg) hI.hist
    rw [hI.all, List.map_append] at hfresh
    have hids : (added (acts "actions" ops)).map Spec.Entry.id = done.map fun x => Table.wrapId x.1 := by
      rw [hacts, List.map_map]; rfl
    have hnot : Table.wrapId a ∉ s.proxy.table.lengths.keys := by
      intro hid
      have := stored_ids hc hr hid
      rw [hids] at this
      exact (List.nodup_append.1 hfresh).2.2 _ this _ (by simp) rfl
    have hr1 := Run.add hr (env_seqOk (names_ok cfg.useTerminal) rfl hlk hc hr hE hsh) hnot hadd
    refine ⟨h, T, done ++ [(a, ss)], want, hI.slots, hI.hist, ?_, ⟨hI.proxy.nodup, hI.proxy.none, hI.proxy.some⟩,
      ⟨_, hr1, ?_⟩, by rw [hI.all]; simp, hrest⟩
    · have := hI.latest
      simpa only [State.latest, hloc] using this
    · rw [acts_append, toAct_add, ← hlk, entryOf_shows hsh, hlk, added_append, hacts, List.map_append]
      rfl

theorem life_inv (hwf : env.WF n) (hlk : cfg.lengthKey = "actions") {nstep : Bool} {maxlen : Int}
    (hc : Created (Builder.columns nstep cfg.useTerminal ["obs"]) maxlen "actions" t0) {ds : List Did} {s : State V M}
    (hl : Life cfg k env n t0 ds s) : ∃ h T done want, Agrees cfg k n t0 s h T done want := by
  induction hl with
  | nil =>
    exact ⟨[], fun _ => (0, 0), [], [], new_slots, ⟨by simp, fun a => Track.nil _ _ _ _, by simp [mine]⟩, Or.inl ⟨rfl, rfl⟩,
      inv_new cfg t0, ⟨[], Run.nil, rfl⟩, rfl, List.Forall₂.nil⟩
  | @begin_ ds s s' agent warmup _ hidle hb ih =>
    obtain ⟨h, T, done, want, hI⟩ := ih
    unfold GymThreads.begin_ at hb
    split at hb
    · simp at hb
    rename_i c ht
    simp only [Except.ok.injEq] at hb
    subst hb
    obtain ⟨w1, obs1, actions, w2, res, info, w3, obs3, hr1, hact, hst, hr3, rfl⟩ := tryOut_ok ht
    obtain ⟨s1, q1, p1, -⟩ := reset_hist hI.slots.rewLen hI.hist hr1
    obtain ⟨batch, out, b1, b2, b3, -⟩ := dictStep_ok hwf s1.idsLen s1.rewLen s1.nodup s1.lt hst
    obtain ⟨s3, q3, p3, -, ⟨rows, r1⟩, r2⟩ := reset_hist (b3.rewLen.trans s1.rewLen) (GymRun.Hist.step_only q1 b3) hr3
    refine ⟨h, _, done, want, s3, q3, Or.inr ⟨obs3, _, rfl, p3, reset_full r1 r2⟩, hI.proxy, hI.received, hI.all, ?_⟩
    have := hI.todo
    simpa only [State.todo, hidle] using this
  | @turn ds s s' agent draws _ hA ht ih =>
    obtain ⟨h, T, done, want, hI⟩ := ih
    exact turn_inv hwf hlk hc hI hA ht
  | @sample ds s t' count m x r junk y _ hs hy ih =>
    obtain ⟨h, T, done, want, hI⟩ := ih
    obtain ⟨ops, hr, hacts⟩ := hI.received
    refine ⟨h, T, done, want, hI.slots, hI.hist, hI.latest, ⟨hI.proxy.nodup, hI.proxy.none, hI.proxy.some⟩,
      ⟨_, Run.sample hr hs hy, ?_⟩, hI.all, hI.todo⟩
    rw [acts_append, added_append, hacts]
    simp [Op.toAct, added]
  | @resize ds s t' m _ hs ih =>
    obtain ⟨h, T, done, want, hI⟩ := ih
    obtain ⟨ops, hr, hacts⟩ := hI.received
    refine ⟨h, T, done, want, hI.slots, hI.hist, hI.latest, ⟨hI.proxy.nodup, hI.proxy.none, hI.proxy.some⟩,
      ⟨_, Run.resize hr hs, ?_⟩, hI.all, hI.todo⟩
    rw [acts_append, added_append, hacts]
    simp [Op.toAct, added]
  | @stop ds s _ hns ih =>
    obtain ⟨h, T, done, want, hI⟩ := ih
    exact ⟨h, T, done, want, hI.slots, hI.hist, hI.latest, hI.proxy, hI.received, hI.all, hI.todo⟩
  | @ended ds s _ hst hov ih =>
    obtain ⟨h, T, done, want, hI⟩ := ih
    refine ⟨h, T, done, want, hI.slots, hI.hist, ?_, hI.proxy, hI.received, hI.all, ?_⟩
    · have := hI.latest
      simpa only [State.latest, joined, hov] using this
    · have := hI.todo
      simpa only [State.todo, joined, hov] using this

/-- **C142** While a collector runs in its thread, whatever anyone samples at any moment, also between two of the episodes
that a round adds, is a stretch of what one slot of the environment went through, as in C137. -/
theorem C142 (hwf : env.WF n) (hlk : cfg.lengthKey = "actions") {maxlen : Int}
    (hc : Created (Builder.columns false cfg.useTerminal ["obs"]) maxlen "actions" t0) {ds : List Did} {s : State V M}
    (hl : Life cfg k env n t0 ds s) {count m : Nat} (hm : 0 < m)
    (hmin : m = 1 ∨ ∃ l, cfg.minLength = some l ∧ (m : Int) ≤ l) {x r : Nat → Nat} {junk : String → Nat → Cell V}
    {one : V → Bool} {t' : Table V} {b : Batch V}
    (hs : Table.sampleAdapted (Builder.adaptors one cfg.useTerminal ["obs"]) count m x r junk s.proxy.table = (t', .ok b)) :
    ∃ oc xc act rew dn mk : List (Cell V), b.get? "observation" = some (.obs [("obs", oc)]) ∧
      b.get? "next_observation" = some (.obs [("obs", xc)]) ∧ b.get? "actions" = some (.col act) ∧
      b.get? "rewards" = some (.col rew) ∧ b.get? "dones" = some (.col dn) ∧ b.get? "masks" = some (.col mk) ∧
      act.length = count * m ∧ rew.length = count * m ∧ dn.length = count * m ∧ mk.length = count * m ∧
      ∀ q, q < count → ∃ i t, ∀ j, j < m → ∃ v a r v' ended, Made s.wrapper.log i (t + j) v a r v' ended ∧
        oc[q * m + j]? = some (.row v) ∧ act[q * m + j]? = some (.row a) ∧ rew[q * m + j]? = some (.row (k.reward r)) ∧
        xc[q * m + j]? = some (.row v') ∧ dn[q * m + j]? = some (.bit ended) ∧ mk[q * m + j]? = some (.bit !ended) := by
  obtain ⟨h, T, done, want, hI⟩ := life_inv hwf hlk hc hl
  obtain ⟨ops, hr, hacts⟩ := hI.received
  refine hist_transitions hlk hc hr hI.hist (fun e he => ?_) hm hmin hs
  rw [hacts] at he
  obtain ⟨⟨a, ss⟩, h1, h2⟩ := List.mem_map.1 he
  exact ⟨a, ss, by rw [hI.all]; simp [h1], h2.symm⟩

/-- **C142** (nothing is refused). With FIFO ejection, the thread never fails to add an episode that fits. -/
theorem C142_accepts (hwf : env.WF n) (hlk : cfg.lengthKey = "actions") {nstep : Bool} {maxlen : Int}
    (hc : Created (Builder.columns nstep cfg.useTerminal ["obs"]) maxlen "actions" t0) {f : Fifo} (hf : t0.ejector = .fifo f)
    {ds : List Did} {s : State V M} (hl : Life cfg k env n t0 ds s) {b : Between} {next : Dict Int (Obs V M)}
    {info : Option ℚ} {a : Int} {ep : Episode V} {todo : List (Int × Episode V)}
    (hloc : s.loc = .adding b next info ((a, ep) :: todo))
    (hfit : ∀ rows, ep.get? "actions" = some rows → (rows.length : Int) ≤ s.proxy.table.maxlen)
    (agent : Dict Int (Obs V M) → Except Err (Dict Int (Response V))) (draws : List Nat) :
    ∃ s', turn cfg k env agent draws s = .ok s' := by
  obtain ⟨h, T, done, want, hI⟩ := life_inv hwf hlk hc hl
  have htodo := hI.todo
  simp only [State.todo, hloc] at htodo
  cases htodo with
  | @cons _ w _ want hgw hrest =>
  obtain ⟨wa, ss⟩ := w
  obtain ⟨rfl, hsh⟩ : a = wa ∧ Shows cfg ep ss := hgw
  obtain ⟨ops, hr, hacts⟩ := hI.received
  have hE := (delivered_ended (hist_environment hI.hist) (a := a) (ss := ss) (cfg := cfg) (by rw [hI.all]; simp)).1
  have hfresh := hist_ids (cfg := cfg) hI.hist
  rw [hI.all, List.map_append] at hfresh
  have hids : (added (acts "actions" ops)).map Spec.Entry.id = done.map fun x => Table.wrapId x.1 := by
    rw [hacts, List.map_map]; rfl
  have hnot : Table.wrapId a ∉ s.proxy.table.lengths.keys := by
    intro hid
    have := stored_ids hc hr hid
    rw [hids] at this
    exact (List.nodup_append.1 hfresh).2.2 _ this _ (by simp) rfl
  have hseq := env_seqOk (names_ok cfg.useTerminal) rfl hlk hc hr hE hsh
  obtain ⟨rows, hrows⟩ : ∃ rows, Dict.get? ep "actions" = some rows := by
    obtain ⟨q, hq⟩ := run_hist hc hr
    have hcols := builder_columns_eq (names_ok cfg.useTerminal) hq
    exact Dict.get?_isSome_of_mem (hseq.complete ("actions", .plain)
      (by rw [hcols]; simp [Builder.columns]) (Or.inl rfl))
  obtain ⟨t1, h3⟩ := C02_add_succeeds hc hf hr draws a ep hseq hnot hrows (hfit rows hrows)
  refine ⟨{ s with proxy := { s.proxy with table := t1 }, loc := .adding b next info todo }, ?_⟩
  unfold turn
  simp only [hloc, h3]

/-- **C142** (nothing is lost). Whenever the collector is not in the middle of a round, every episode of a slot that ended
after the last reset, and before the last step, has been added to the table whole and once. -/
theorem C142_complete (hwf : env.WF n) (hlk : cfg.lengthKey = "actions") {nstep : Bool} {maxlen : Int}
    (hc : Created (Builder.columns nstep cfg.useTerminal ["obs"]) maxlen "actions" t0) {ds : List Did} {s : State V M}
    (hl : Life cfg k env n t0 ds s) (hround : ∀ b next info todo, s.loc ≠ .adding b next info todo) :
    ∃ eps : List (Int × List (Step V M)), Received cfg t0 s.proxy.table eps ∧ (eps.map Prod.fst).Nodup ∧
    ∀ {b i u : Nat} (_ : i < n) {rows : List V} (_ : s.wrapper.log[b]? = some (.reset rows))
    (_ : ∀ t rows', b < t → s.wrapper.log[t]? ≠ some (.reset rows')) (_ : b < u)
    (_ : u + 1 < s.wrapper.log.length) {e : GymRun.Entry V} (_ : s.wrapper.log[u]? = some e) (_ : e.EndedAt i),
    ∃ t a ss, b ≤ t ∧ EpisodeOf s.wrapper.log i t u ∧ ss.length = u - t + 1 ∧
      (longEnough cfg ss = true → (a, ss) ∈ eps) ∧
      ∀ q, q < u - t → ∃ s0 s1 v act r v' ended, ss[q]? = some s0 ∧ ss[q + 1]? = some s1 ∧
        Made s.wrapper.log i (t + q) v act r v' ended ∧ s0.obs.arrays = [("obs", v)] ∧ s0.action = some act ∧
        s1.obs.arrays = [("obs", v')] ∧ s1.obs.rewards = [("reward", k.reward r)] ∧ s1.ends = ended := by
  obtain ⟨h, T, done, want, hI⟩ := life_inv hwf hlk hc hl
  have hw : want = [] := by
    have htodo := hI.todo
    have : s.todo = [] := by
      unfold State.todo
      split
      · rename_i b next info todo hloc
        exact absurd hloc (hround _ _ _ _)
      · rfl
    rw [this] at htodo
    cases htodo
    rfl
  subst hw
  have hall := hI.all
  rw [List.append_nil] at hall
  refine ⟨done, hI.received, ?_, ?_⟩
  · have := hist_ids (cfg := cfg) hI.hist
    rw [hall] at this
    rw [show (fun x : Int × List (Step V M) => Table.wrapId x.1) = Table.wrapId ∘ Prod.fst from rfl, ← List.map_map] at this
    exact List.Nodup.of_map _ this
  · intro b i u hi rows hb hlast hbu hu e hue hend
    rcases hI.latest with ⟨-, hx⟩ | ⟨obs, b', -, hP, hF⟩
    · rw [hx] at hb; simp at hb
    rw [← hall]
    exact hist_episodes hI.hist hF hi hb hlast hbu hu hue hend

/-! ### Stopping -/

/-- How many turns the thread still needs when it is asked to stop. -/
def turnsLeft (s : State V M) : Nat :=
  match s.loc with
  | .idle => 0
  | .over => 0
  | .at _ => 1
  | .adding _ _ _ todo => todo.length + 2

theorem turn_stopped {agent : Dict Int (Obs V M) → Except Err (Dict Int (Response V))} {draws : List Nat} {s s' : State V M}
    (hs : s.stop = true) (hns : ¬ Starting s) (ht : turn cfg k env agent draws s = .ok s') :
    s'.wrapper = s.wrapper ∧ s'.stop = true ∧ ¬ Starting s' ∧ turnsLeft s' = turnsLeft s - 1 := by
  unfold turn at ht
  split at ht
  · rename_i hloc
    simp only [Except.ok.injEq] at ht
    subst ht
    exact ⟨rfl, hs, hns, by simp [turnsLeft, hloc]⟩
  · rename_i hloc
    simp only [Except.ok.injEq] at ht
    subst ht
    exact ⟨rfl, hs, hns, by simp [turnsLeft, hloc]⟩
  · rename_i hloc
    exact absurd (.inl ⟨_, hloc⟩) hns
  · rename_i hloc
    exact absurd (.inl ⟨_, hloc⟩) hns
  · rename_i hloc
    rw [if_pos hs] at ht
    simp only [Except.ok.injEq] at ht
    subst ht
    exact ⟨rfl, hs, by simp [Starting], by simp [turnsLeft, hloc]⟩
  · rename_i b next info hloc
    simp only [Except.ok.injEq] at ht
    subst ht
    cases b with
    | warm m => exact absurd (.inr ⟨_, _, _, _, hloc⟩) hns
    | loop => exact ⟨rfl, hs, by simp [Starting], by simp [turnsLeft, hloc]⟩
  · rename_i b next info a ep todo hloc
    split at ht
    · simp at ht
    simp only [Except.ok.injEq] at ht
    subst ht
    cases b with
    | warm m => exact absurd (.inr ⟨_, _, _, _, hloc⟩) hns
    | loop => exact ⟨rfl, hs, by simp [Starting], by simp [turnsLeft, hloc]⟩

/-- **C143** Once `end_training` was called the environment is not stepped any more, until `begin_training` is called again,
whatever else happens in the meantime. And `end_training` returns: when the thread has had as many turns as there are
episodes of the current round to be added, and two more, it has ended. -/
theorem C143 {s0 s : State V M} (hs : s0.stop = true) (hns : ¬ Starting s0) {ds : List Did}
    (hm : Moves cfg k env n s0 ds s) (hb : Did.begin_ ∉ ds) :
    s.wrapper.log = s0.wrapper.log ∧
    (turnsLeft s0 ≤ ds.count .turn → s.loc = .idle ∨ s.loc = .over) := by
  have key : s.wrapper = s0.wrapper ∧ s.stop = true ∧ ¬ Starting s ∧ turnsLeft s ≤ turnsLeft s0 - ds.count .turn := by
    induction hm with
    | nil => exact ⟨rfl, hs, hns, by simp⟩
    | begin_ => simp at hb
    | @turn ds s s' agent draws _ hA ht ih =>
      obtain ⟨h1, h2, h3, h4⟩ := ih (fun h => hb (by simp [h]))
      obtain ⟨g1, g2, g3, g4⟩ := turn_stopped h2 h3 ht
      exact ⟨g1.trans h1, g2, g3, by rw [g4, List.count_append]; simp; omega⟩
    | sample _ _ _ ih =>
      obtain ⟨h1, h2, h3, h4⟩ := ih (fun h => hb (by simp [h]))
      exact ⟨h1, h2, h3, by rw [List.count_append]; exact h4⟩
    | resize _ _ ih =>
      obtain ⟨h1, h2, h3, h4⟩ := ih (fun h => hb (by simp [h]))
      exact ⟨h1, h2, h3, by rw [List.count_append]; exact h4⟩
    | stop _ _ ih =>
      obtain ⟨h1, h2, h3, h4⟩ := ih (fun h => hb (by simp [h]))
      exact ⟨h1, rfl, h3, by rw [List.count_append]; exact h4⟩
    | ended _ _ hov ih =>
      obtain ⟨h1, h2, h3, h4⟩ := ih (fun h => hb (by simp [h]))
      exact ⟨h1, h2, by simp [Starting, joined], by simp [turnsLeft, joined]⟩
  obtain ⟨h1, h2, h3, h4⟩ := key
  refine ⟨by rw [h1], fun hge => ?_⟩
  have h0 : turnsLeft s = 0 := by omega
  unfold turnsLeft at h0
  split at h0
  · left; assumption
  · right; assumption
  · omega
  · omega

theorem act_log {agent : Dict Int (Obs V M) → Except Err (Dict Int (Response V))} {back : Between} {s s' : State V M}
    (h : act cfg k env agent back s = .ok s') : s'.wrapper.log.length = s.wrapper.log.length + 1 := by
  obtain ⟨obs, resp, w, next, info, p, done, -, -, hst, -, rfl⟩ := act_ok h
  obtain ⟨acts, out, hl⟩ := dictStep_log hst
  simp [hl]

theorem turn_stop {agent : Dict Int (Obs V M) → Except Err (Dict Int (Response V))} {draws : List Nat} {s s' : State V M}
    (ht : turn cfg k env agent draws s = .ok s') : s'.stop = s.stop := by
  unfold turn at ht
  split at ht
  · simp only [Except.ok.injEq] at ht; rw [ht]
  · simp only [Except.ok.injEq] at ht; rw [ht]
  · simp only [Except.ok.injEq] at ht; rw [← ht]
  · obtain ⟨_, _, _, _, _, _, _, -, -, -, -, rfl⟩ := act_ok ht; rfl
  · split at ht
    · simp only [Except.ok.injEq] at ht; rw [← ht]
    · obtain ⟨_, _, _, _, _, _, _, -, -, -, -, rfl⟩ := act_ok ht; rfl
  · simp only [Except.ok.injEq] at ht; rw [← ht]
  · split at ht
    · simp at ht
    · simp only [Except.ok.injEq] at ht; rw [← ht]

/-- How many turns there are until the environment is stepped. -/
def untilStep (s : State V M) : Nat :=
  match s.loc with
  | .idle => 0
  | .over => 0
  | .at (.warm 0) => 2
  | .at _ => 1
  | .adding _ _ _ todo => todo.length + 3

/-- The collector is at work. -/
def Working (s : State V M) : Prop := s.stop = false ∧ s.loc ≠ .idle ∧ s.loc ≠ .over

theorem turn_working {agent : Dict Int (Obs V M) → Except Err (Dict Int (Response V))} {draws : List Nat} {s s' : State V M}
    (hw : Working s) (ht : turn cfg k env agent draws s = .ok s') :
    Working s' ∧ (s'.wrapper.log.length = s.wrapper.log.length + 1 ∨ s'.wrapper.log = s.wrapper.log ∧
      untilStep s' + 1 ≤ untilStep s) := by
  obtain ⟨hs, h1, h2⟩ := hw
  unfold turn at ht
  split at ht
  · contradiction
  · contradiction
  · rename_i hloc
    simp only [Except.ok.injEq] at ht
    subst ht
    exact ⟨⟨hs, by simp, by simp⟩, .inr ⟨rfl, by simp [untilStep, hloc]⟩⟩
  · have hl := act_log ht
    obtain ⟨_, _, _, _, _, _, _, -, -, -, -, rfl⟩ := act_ok ht
    exact ⟨⟨hs, by simp, by simp⟩, .inl hl⟩
  · rw [hs, if_neg (by simp)] at ht
    have hl := act_log ht
    obtain ⟨_, _, _, _, _, _, _, -, -, -, -, rfl⟩ := act_ok ht
    exact ⟨⟨hs, by simp, by simp⟩, .inl hl⟩
  · rename_i b next info hloc
    simp only [Except.ok.injEq] at ht
    subst ht
    refine ⟨⟨hs, by simp, by simp⟩, .inr ⟨rfl, ?_⟩⟩
    simp only [untilStep, hloc, List.length_nil]
    split <;> simp_all
  · rename_i b next info a ep todo hloc
    split at ht
    · simp at ht
    simp only [Except.ok.injEq] at ht
    subst ht
    exact ⟨⟨hs, by simp, by simp⟩, .inr ⟨rfl, by simp [untilStep, hloc]⟩⟩

theorem moves_working {s0 s : State V M} {ds : List Did} (hm : Moves cfg k env n s0 ds s) (hw : Working s0)
    (hstop : Did.stop ∉ ds) : Working s ∧ (s0.wrapper.log.length < s.wrapper.log.length ∨
      s.wrapper.log.length = s0.wrapper.log.length ∧ untilStep s + ds.count .turn ≤ untilStep s0) := by
  induction hm with
  | nil => exact ⟨hw, .inr ⟨rfl, by simp⟩⟩
  | begin_ _ _ hidle _ ih => exact absurd hidle (ih fun h => hstop (by simp [h])).1.2.1
  | turn _ _ _ ht ih =>
    obtain ⟨h1, h2⟩ := ih fun h => hstop (by simp [h])
    obtain ⟨g1, g2⟩ := turn_working h1 ht
    refine ⟨g1, ?_⟩
    rw [List.count_append, show List.count Did.turn [Did.turn] = 1 from rfl]
    rcases h2 with h2 | ⟨h2, h3⟩ <;> rcases g2 with g2 | ⟨g2, g3⟩
    · left; omega
    · left; rw [g2]; exact h2
    · left; omega
    · right; rw [g2]; exact ⟨h2, by omega⟩
  | sample _ _ _ ih =>
    obtain ⟨h1, h2⟩ := ih fun h => hstop (by simp [h])
    exact ⟨h1, by rw [List.count_append]; exact h2⟩
  | resize _ _ ih =>
    obtain ⟨h1, h2⟩ := ih fun h => hstop (by simp [h])
    exact ⟨h1, by rw [List.count_append]; exact h2⟩
  | stop => simp at hstop
  | ended _ hs _ ih =>
    have := (ih fun h => hstop (by simp [h])).1.1
    rw [hs] at this
    cases this

theorem untilStep_le (s : State V M) : untilStep s ≤ s.todo.length + 3 := by
  unfold untilStep State.todo
  split <;> simp_all

theorem untilStep_pos {s : State V M} (hw : Working s) : 0 < untilStep s := by
  obtain ⟨-, h1, h2⟩ := hw
  unfold untilStep
  split <;> simp_all

theorem life_working {ds : List Did} {s : State V M} (hl : Life cfg k env n t0 ds s) (hstop : Did.stop ∉ ds) :
    s.stop = false ∧ (Did.begin_ ∈ ds → Working s) := by
  induction hl with
  | nil => exact ⟨rfl, by simp⟩
  | @begin_ ds s s' agent warmup _ _ hb ih =>
    have h := (ih fun h => hstop (by simp [h])).1
    unfold GymThreads.begin_ at hb
    split at hb
    · simp at hb
    simp only [Except.ok.injEq] at hb
    subst hb
    exact ⟨h, fun _ => ⟨h, by simp, by simp⟩⟩
  | turn _ _ _ ht ih =>
    obtain ⟨h1, h2⟩ := ih fun h => hstop (by simp [h])
    exact ⟨(turn_stop ht).trans h1, fun h => (turn_working (h2 (by simpa using h)) ht).1⟩
  | sample _ _ _ ih =>
    obtain ⟨h1, h2⟩ := ih fun h => hstop (by simp [h])
    exact ⟨h1, fun h => h2 (by simpa using h)⟩
  | resize _ _ ih =>
    obtain ⟨h1, h2⟩ := ih fun h => hstop (by simp [h])
    exact ⟨h1, fun h => h2 (by simpa using h)⟩
  | stop => simp at hstop
  | ended _ hs _ ih =>
    have := (ih fun h => hstop (by simp [h])).1
    rw [hs] at this
    cases this

/-- **C144** until the collector's first `end_training`: as soon as `begin_training` was called, its thread collects. Whatever
happens and whoever else uses the memory, the environment is stepped again after at most as many turns of the thread as it
has episodes at hand, and three. -/
theorem C144_partial {before since ds : List Did} {s s' : State V M}
    (hl : Life cfg k env n t0 (before ++ .begin_ :: since) s) (hstop : Did.stop ∉ before ++ .begin_ :: since)
    (hm : Moves cfg k env n s ds s') (hstop' : Did.stop ∉ ds) (hturns : s.todo.length + 3 ≤ ds.count .turn) :
    s.wrapper.log.length < s'.wrapper.log.length := by
  have hw := (life_working hl hstop).2 (by simp)
  obtain ⟨h1, h2⟩ := moves_working hm hw hstop'
  have h3 := untilStep_pos h1
  have h4 := untilStep_le s
  rcases h2 with h2 | h2
  · exact h2
  · omega

end

/-- **C144**, the claim: after `begin_training` and until `end_training` is called, the thread collects. -/
def C144_claim : Prop :=
  ∀ (cfg : ProxyCfg ℚ) (k : Codec ℚ) (env : VecEnv ℚ) (n : Nat) (t0 : Table ℚ) (before since ds : List Did)
    (s s' : State ℚ Unit), Life cfg k env n t0 (before ++ .begin_ :: since) s → Did.stop ∉ since →
      Moves cfg k env n s ds s' → Did.stop ∉ ds → s.todo.length + 3 ≤ ds.count .turn →
      s.wrapper.log.length < s'.wrapper.log.length

/-! ## A concrete life -/

namespace ExT

open ExG

def s0 : State ℚ Unit := .new 2 t0
def s1 : State ℚ Unit := okOr (begin_ k env 2 1 agent s0) s0
def go (s : State ℚ Unit) : State ℚ Unit := okOr (turn cfg k env agent [] s) s0

theorem begun : Life cfg k env 2 t0 [.begin_] s1 :=
  Moves.begin_ (ds := []) (agent := agent) 1 .nil rfl (eq_ok s0 (by decide +kernel))

theorem go_on {ds : List Did} {s' s : State ℚ Unit} (hl : Moves cfg k env 2 s' ds s) (h1 : (s.obs.getD []).keys.Nodup)
    (h2 : isOk (turn cfg k env agent [] s) = true) : Moves cfg k env 2 s' (ds ++ [.turn]) (go s) := by
  refine Moves.turn (agent := agent) [] hl (fun obs resp ho ha => ?_) (eq_ok s0 h2)
  rw [ho] at h1
  simp only [agent, Except.ok.injEq] at ha
  rw [← ha]
  exact answers h1

/-- One round of warm-up, the start of the thread, and half a round: an episode is on its way. -/
def s2 : State ℚ Unit := go (go (go (go s1)))

theorem life2 : Life cfg k env 2 t0 [.begin_, .turn, .turn, .turn, .turn] s2 :=
  go_on (ds := [_, _, _, _]) (go_on (ds := [_, _, _]) (go_on (ds := [_, _]) (go_on (ds := [_]) begun (by decide +kernel) (by decide +kernel))
    (by decide +kernel) (by decide +kernel)) (by decide +kernel) (by decide +kernel)) (by decide +kernel) (by decide +kernel)

/-- Five entries of the log: two resets with the check between them, the warm-up round and the thread's first step. Slot 1
was cut off in the warm-up round; its episode is in the hands of the thread and not in the memory yet. -/
example : s2.wrapper.log.length = 5 ∧ s2.todo.map (·.1) = [5] ∧ s2.proxy.table.lengths = [] := by decide +kernel

/-- A sample in the middle of the round, when nothing is there, fails and changes nothing that matters. -/
def s3 : State ℚ Unit :=
  { s2 with proxy := { s2.proxy with table := (Table.sample 1 1 id id (fun _ _ => .bit false) s2.proxy.table).1 } }

theorem life3 : Life cfg k env 2 t0 [.begin_, .turn, .turn, .turn, .turn, .sample] s3 :=
  Moves.sample (ds := [_, _, _, _, _]) (count := 1) (m := 1) (x := id) (r := id) (junk := fun _ _ => .bit false) life2
    (Prod.ext rfl rfl) (by decide +kernel)

/-- The thread adds the episode and takes another step. -/
def s4 : State ℚ Unit := go (go (go s3))

theorem life4 : Life cfg k env 2 t0 [.begin_, .turn, .turn, .turn, .turn, .sample, .turn, .turn, .turn] s4 :=
  go_on (ds := [_, _, _, _, _, _, _, _]) (go_on (ds := [_, _, _, _, _, _, _]) (go_on (ds := [_, _, _, _, _, _]) life3
    (by decide +kernel) (by decide +kernel)) (by decide +kernel) (by decide +kernel)) (by decide +kernel) (by decide +kernel)

/-- A sample now, while the second episode is on its way: the transition of the first, with the final observation. -/
example : (Table.sampleAdapted (Builder.adaptors (· == 1) false ["obs"]) 1 1 id (fun i => i) (fun _ _ => .bit false)
      s4.proxy.table).2.map (fun b => (b.get? "observation", b.get? "next_observation", b.get? "rewards", b.get? "dones"))
    = .ok (some (.obs [("obs", [.row 102])]), some (.obs [("obs", [.row 2003])]), some (.col [.row 30]),
      some (.col [.bit true])) ∧ s4.todo.map (·.1) = [4] ∧ s4.wrapper.log.length = 6 := by decide +kernel

/-- `C142` applies to it. -/
example {t' : Table ℚ} {b : Batch ℚ}
    (hs : Table.sampleAdapted (Builder.adaptors (· == 1) false ["obs"]) 1 1 id (fun i => i) (fun _ _ => .bit false)
      s4.proxy.table = (t', .ok b)) :
    ∃ rew, b.get? "rewards" = some (.col rew) ∧ rew.length = 1 := by
  obtain ⟨_, _, _, rew, _, _, -, -, -, h, -, -, -, hl, -⟩ := C142 env_wf rfl created life4 (by decide) (.inl rfl) hs
  exact ⟨rew, h, hl⟩

theorem s4_at : ∃ next info ep, s4.loc = .adding .loop next info [(4, ep)] := by
  have h : (match s4.loc with | .adding .loop _ _ [(4, _)] => true | _ => false) = true := by decide +kernel
  split at h
  · rename_i next info ep he; exact ⟨next, info, ep, he⟩
  · simp at h

theorem s4_loop : ¬ Starting s4 := by
  obtain ⟨next, info, ep, h⟩ := s4_at
  simp [Starting, h]

/-- `C142_accepts` applies to it. -/
example : ∃ s', turn cfg k env agent [] s4 = .ok s' := by
  obtain ⟨next, info, ep, h⟩ := s4_at
  refine C142_accepts env_wf rfl created (f := {}) (by decide +kernel) life4 h (fun rows hr => ?_) agent []
  have : (s4.todo.all fun x => match x.2.get? "actions" with
    | some rows => decide ((rows.length : Int) ≤ s4.proxy.table.maxlen)
    | none => true) = true := by decide +kernel
  simpa [State.todo, h, hr] using this

/-- Training ends here. -/
def s5 : State ℚ Unit := askToStop s4

theorem life5 : Life cfg k env 2 t0 [.begin_, .turn, .turn, .turn, .turn, .sample, .turn, .turn, .turn, .stop] s5 :=
  Moves.stop (ds := [_, _, _, _, _, _, _, _, _]) life4 s4_loop

/-- `C143`: after three turns, which add the episode, the thread has ended, and nothing else happens. -/
example {s : State ℚ Unit} (hm : Moves cfg k env 2 s5 [.turn, .sample, .turn, .turn, .turn] s) :
    s.wrapper.log.length = 6 ∧ (s.loc = .idle ∨ s.loc = .over) := by
  have h := C143 (s0 := s5) rfl s4_loop hm (by decide)
  obtain ⟨next, info, ep, hl⟩ := s4_at
  refine ⟨by rw [h.1]; decide +kernel, h.2 ?_⟩
  simp only [turnsLeft, s5, askToStop, hl, List.length_singleton]
  decide

def s6 : State ℚ Unit := joined (go (go (go s5)))

theorem life6 : Life cfg k env 2 t0
    [.begin_, .turn, .turn, .turn, .turn, .sample, .turn, .turn, .turn, .stop, .turn, .turn, .turn, .ended] s6 := by
  refine Moves.ended (ds := [_, _, _, _, _, _, _, _, _, _, _, _, _]) (go_on (ds := [_, _, _, _, _, _, _, _, _, _, _, _])
    (go_on (ds := [_, _, _, _, _, _, _, _, _, _, _]) (go_on (ds := [_, _, _, _, _, _, _, _, _, _]) life5
    (by decide +kernel) (by decide +kernel)) (by decide +kernel) (by decide +kernel)) (by decide +kernel) (by decide +kernel))
    (by decide +kernel) ?_
  have h : (match (go (go (go s5))).loc with | .over => true | _ => false) = true := by decide +kernel
  split at h
  · assumption
  · simp at h

/-- Everything that was on its way is in the memory: a transition of one agent and two of another. -/
example : s6.proxy.table.lengths = [(5, 1), (4, 2)] ∧ s6.wrapper.log.length = 6 := by decide +kernel

/-- `C142_complete` for the episode of slot 0 that ended at entry 4: it started at entry 2, and all of it was received. -/
example : ∃ (eps : List (Int × List (Step ℚ Unit))) (t : Nat) (a : Int) (ss : List (Step ℚ Unit)),
    Received cfg t0 s6.proxy.table eps ∧ EpisodeOf s6.wrapper.log 0 t 4 ∧ ss.length = 4 - t + 1 ∧ (a, ss) ∈ eps := by
  obtain ⟨eps, hr, -, h⟩ := C142_complete env_wf rfl created life6 (by intro b next info todo he; cases he)
  have hlast : ∀ (t : Nat) (rows : List ℚ), 2 < t → s6.wrapper.log[t]? ≠ some (.reset rows) := by
    intro t rows ht he
    have hk : (s6.wrapper.log.drop 3).all (fun e => match e with | .reset _ => false | .step _ _ => true) = true := by
      decide +kernel
    have : (s6.wrapper.log.drop 3)[t - 3]? = some (.reset rows) := by
      rw [List.getElem?_drop, show 3 + (t - 3) = t by omega, he]
    simpa using List.all_eq_true.1 hk _ (List.mem_of_getElem? this)
  obtain ⟨t, a, ss, -, h1, h2, h3, -⟩ := h (b := 2) (i := 0) (u := 4) (by decide) (rows := [2, 102]) (by decide +kernel)
    hlast (by decide) (by decide +kernel) (e := .step [-4, -6] (answer 4)) (by decide +kernel)
    ⟨_, _, true, false, rfl, by decide +kernel, by decide +kernel, rfl⟩
  exact ⟨eps, t, a, ss, hr, h1, h2, h3 rfl⟩

/-- A second training with the same collector, without warm-up. -/
def s7 : State ℚ Unit := go (okOr (begin_ k env 2 0 agent s6) s0)

theorem life7 : Life cfg k env 2 t0
    [.begin_, .turn, .turn, .turn, .turn, .sample, .turn, .turn, .turn, .stop, .turn, .turn, .turn, .ended, .begin_, .turn]
    s7 :=
  go_on (ds := [_, _, _, _, _, _, _, _, _, _, _, _, _, _, _])
    (Moves.begin_ (ds := [_, _, _, _, _, _, _, _, _, _, _, _, _, _]) (agent := agent) 0 life6 rfl (eq_ok s0 (by decide +kernel)))
    (by decide +kernel) (by decide +kernel)

/-- `C144_partial` in the first training: in four turns the environment is stepped at least once. -/
example {s' : State ℚ Unit} (hm : Moves cfg k env 2 s4 [.turn, .sample, .turn, .turn, .turn] s') :
    6 < s'.wrapper.log.length := by
  have h := C144_partial (before := []) life4 (by decide) hm (by decide) (by decide +kernel)
  rwa [show s4.wrapper.log.length = 6 by decide +kernel] at h

end ExT

/-- **C144** is false: `end_training` sets the flag that ends the thread, and nothing clears it. In a second training with
the same collector the thread ends at once, and nothing is collected but the warm-up. -/
theorem C144_false : ¬ C144_claim := by
  intro h
  have hm : Moves ExG.cfg ExG.k ExG.env 2 ExT.s7 [.turn, .turn, .turn] (ExT.go (ExT.go (ExT.go ExT.s7))) :=
    ExT.go_on (ds := [_, _]) (ExT.go_on (ds := [_]) (ExT.go_on (ds := []) .nil (by decide +kernel) (by decide +kernel))
      (by decide +kernel) (by decide +kernel)) (by decide +kernel) (by decide +kernel)
  have := h ExG.cfg ExG.k ExG.env 2 ExG.t0
    [.begin_, .turn, .turn, .turn, .turn, .sample, .turn, .turn, .turn, .stop, .turn, .turn, .turn, .ended] [.turn] _ ExT.s7
    _ ExT.life7 (by decide) hm (by decide) (by decide +kernel)
  revert this
  decide +kernel

end Verif.GymThreads
