import Verif.Props.GymThreads
import Verif.Props.Targets

/-!
# C145: from gym environments to the targets
-/

namespace Verif.GymTargets

open Verif Verif.Props Verif.Spec Verif.GymRun Verif.Targets Verif.Props.Targets

variable {V M K A : Type}

/-! ## Specification -/

/-- A stretch of `n` steps of slot `i` after entry `t` of the log, all in one episode: after the `j`-th of them it showed
`v j`, was given `a j` and returned `r j`. After the last it showed `last`, and its episode was over or not. -/
def Stretch (log : List (GymRun.Entry V)) (i t n : Nat) (v a : Nat → V) (r : Nat → ℚ) (last : V) (ended : Bool) : Prop :=
  ∀ j, j < n → ∃ v' e, Made log i (t + j) (v j) (a j) (r j) v' e ∧ (j + 1 < n → e = false) ∧
    (j + 1 = n → v' = last ∧ e = ended)

/-- Row `i` of the batch has this observation and this action. -/
def RowHas (b : Batch V) (i : Nat) (v a : V) : Prop :=
  ∃ oc ac, b.get? "observation" = some (.obs [("obs", oc)]) ∧ oc[i]? = some (.row v) ∧
    b.get? "actions" = some (.col ac) ∧ ac[i]? = some (.row a)

/-! ## Proofs -/

section

variable {cfg : ProxyCfg V} {k : Codec V} {env : VecEnv V} {n : Nat} {t0 : Table V}

/-- What a run of an agent is in the log of the environment. -/
theorem run_made {w : Wrapper V} {h : List (Step V M)} {T : Int → Nat × Nat} (hH : GymRun.Hist k w h T) {a : Int}
    {ss run : List (Step V M)} (hdel : (a, ss) ∈ delivered cfg [] h) (hinf : run <:+: ss) {m : Nat} (hrun : IsRun h m run) :
    ∃ i t, ∀ (j : Nat) s s', run[j]? = some s → run[j + 1]? = some s' → ∃ v0 va r0 v1,
      Made w.log i (t + j) v0 va r0 v1 s'.ends ∧ s.ends = false ∧ s.obs.arrays = [("obs", v0)] ∧
      s'.obs.arrays = [("obs", v1)] ∧ s.action = some va ∧ s'.obs.rewards = [("reward", k.reward r0)] := by
  rw [delivered_mine hH hdel] at hinf
  have hT := hH.tracks a
  generalize (T a).1 = i, (T a).2 = t at hT
  obtain ⟨pre, post, hpp⟩ := hinf
  have hidx : ∀ (j : Nat) s, run[j]? = some s → (mine a h)[pre.length + j]? = some s := by
    intro j s hj
    have hlt := (List.getElem?_eq_some_iff.1 hj).1
    rw [← hpp, List.append_assoc, List.getElem?_append_right (by omega), List.getElem?_append_left (by omega)]
    rw [← hj]; congr 1; omega
  refine ⟨i, t + pre.length, fun j s s' g1 g2 => ?_⟩
  have hcon := hrun.2 j s s' g1 g2
  have m1 := hidx j _ g1
  have m2 := hidx (j + 1) _ g2
  obtain ⟨before, b1, b2⟩ := hT.shown _ _ m1
  have hends : s.ends = false := by
    obtain ⟨_, _, _, _, h, _⟩ := hcon
    exact h
  obtain ⟨acts, out, v, rr, c1, c2, c3, c4, c5⟩ := hT.act _ _ m1 hends
  obtain ⟨after, d1, d2⟩ := hT.shown _ _ m2
  rw [show t + (pre.length + (j + 1)) = t + (pre.length + j) + 1 by omega, c1, Option.some.injEq] at d1
  subst d1
  have hni : s'.obs.state ≠ .initial := fun h => by have := (hT.first _ _ m2).1 h; omega
  obtain ⟨v0, r0, v1, q1, q2, q3, q4⟩ := Shown.made b1 b2 hends c1 c2 d2 hni
  have ha : s.action = some v := by simp [Step.action, c3, c4, Dict.get?]
  rw [show t + pre.length + j = t + (pre.length + j) by omega]
  exact ⟨v0, v, r0, v1, q1, hends, q2, q3, ha, q4⟩

/-- A run of an agent that a batch shows is a stretch of the log. -/
theorem run_stretch {w : Wrapper V} {h : List (Step V M)} {T : Int → Nat × Nat} (hH : GymRun.Hist k w h T) {a : Int}
    {ss run : List (Step V M)} (hdel : (a, ss) ∈ delivered cfg [] h) (hinf : run <:+: ss) {m : Nat} (hm : 0 < m)
    (hrun : IsRun h m run) {b : Batch V} {base : Nat}
    (hrow : ∀ (i : Nat) s, i < m → run[i]? = some s → RowIs ["obs"] b (base + i) s) (num : V → K) {rr : Nat → K}
    (hr : Earned num run rr) {x : Dict String (Cell V)} {z : Step V M} (hz : run[m]? = some z) (hx : Saw ["obs"] z x) :
    ∃ i t v act r last, Stretch w.log i t m v act r last z.ends ∧ (∀ j, j < m → rr j = num (k.reward (r j))) ∧
      (∀ j, j < m → RowHas b (base + j) (v j) (act j)) ∧ x = [("obs", .row last)] := by
  obtain ⟨i, t, hmade⟩ := run_made hH hdel hinf hrun
  have hget : ∀ j, j ≤ m → ∃ s, run[j]? = some s := fun j hj => ⟨_, List.getElem?_eq_getElem (by have := hrun.1; omega)⟩
  have key : ∀ j, j < m → ∃ v0 va r0 v1 e, Made w.log i (t + j) v0 va r0 v1 e ∧ (j + 1 < m → e = false) ∧
      (j + 1 = m → z.obs.arrays = [("obs", v1)] ∧ e = z.ends) ∧ rr j = num (k.reward r0) ∧ RowHas b (base + j) v0 va := by
    intro j hj
    obtain ⟨s, hs⟩ := hget j (by omega)
    obtain ⟨s', hs'⟩ := hget (j + 1) (by omega)
    obtain ⟨v0, va, r0, v1, h1, h2, h3, h4, h5, h6⟩ := hmade j s s' hs hs'
    refine ⟨v0, va, r0, v1, s'.ends, h1, fun hlt => ?_, fun he => ?_, ?_, ?_⟩
    · obtain ⟨s'', hs''⟩ := hget (j + 1 + 1) (by omega)
      obtain ⟨_, _, _, _, -, g, -⟩ := hmade (j + 1) s' s'' hs' hs''
      exact g
    · subst he
      rw [hs', Option.some.injEq] at hz
      subst hz
      exact ⟨h4, rfl⟩
    · obtain ⟨u, hu, hru⟩ := hr j s' hs'
      rw [h6] at hu
      simp only [Dict.get?, if_true, Option.some.injEq] at hu
      rw [hru, ← hu]
    · obtain ⟨⟨o, o1, o2, o3⟩, col, u, c1, c2, c3⟩ := hrow j s hj hs
      obtain ⟨oc, rfl⟩ := keys_single o2
      obtain ⟨col', u', d1, d2, d3⟩ := o3 "obs" (by simp)
      simp only [Dict.get?, if_true, Option.some.injEq, h3] at d1 d2
      rw [h5, Option.some.injEq] at c2
      subst d1 d2 c2
      exact ⟨_, col, o1, d3, c1, c3⟩
  have key' : ∀ j, ∃ q : V × V × ℚ × V × Bool, j < m → Made w.log i (t + j) q.1 q.2.1 q.2.2.1 q.2.2.2.1 q.2.2.2.2 ∧
      (j + 1 < m → q.2.2.2.2 = false) ∧
      (j + 1 = m → z.obs.arrays = [("obs", q.2.2.2.1)] ∧ q.2.2.2.2 = z.ends) ∧ rr j = num (k.reward q.2.2.1) ∧
      RowHas b (base + j) q.1 q.2.1 := by
    intro j
    by_cases hj : j < m
    · obtain ⟨v0, va, r0, v1, e, h⟩ := key j hj
      exact ⟨(v0, va, r0, v1, e), fun _ => h⟩
    · obtain ⟨v0, va, r0, v1, e, -⟩ := key 0 hm
      exact ⟨(v0, va, r0, v1, e), fun h => absurd h hj⟩
  choose f hf using key'
  obtain ⟨xk, xv⟩ := hx
  obtain ⟨c, rfl⟩ := keys_single xk
  obtain ⟨u, u1, u2⟩ := xv "obs" (by simp)
  simp only [Dict.get?, if_true, Option.some.injEq] at u2
  subst u2
  refine ⟨i, t, fun j => (f j).1, fun j => (f j).2.1, fun j => (f j).2.2.1, u, fun j hj => ?_, fun j hj => (hf j hj).2.2.2.1,
    fun j hj => (hf j hj).2.2.2.2, rfl⟩
  obtain ⟨h1, h2, h3, -⟩ := hf j hj
  refine ⟨_, _, h1, h2, fun he => ?_⟩
  obtain ⟨h4, h5⟩ := h3 he
  rw [h4] at u1
  simp only [Dict.get?, if_true, Option.some.injEq] at u1
  exact ⟨u1, h5⟩

variable [Field K] [LinearOrder K]

omit [LinearOrder K] in
theorem nStep_congr {gamma scale : K} {r r' : Nat → K} {m : Nat} (h : ∀ j, j < m → r j = r' j) {j : Nat} (value : K) :
    nStep gamma scale r m j value = nStep gamma scale r' m j value := by
  unfold nStep
  congr 2
  refine List.map_congr_left fun i hi => ?_
  rw [h _ (by have := List.mem_range.1 hi; omega)]

theorem hist_dqn (hlk : cfg.lengthKey = "actions") {nstep : Bool} {maxlen : Int}
    (hc : Created (Builder.columns nstep cfg.useTerminal ["obs"]) maxlen "actions" t0)
    {ops : List (Op V)} {t : Table V} (hr : Run t0 ops t) {w : Wrapper V} {h : List (Step V M)} {T : Int → Nat × Nat}
    (hH : GymRun.Hist k w h T)
    (hadd : ∀ e ∈ added (acts "actions" ops), ∃ a ss, (a, ss) ∈ delivered cfg [] h ∧ e = asEntry cfg (a, ss)) {count m : Nat} (hm : 0 < m)
    (hmin : m = 1 ∨ ∃ l, cfg.minLength = some l ∧ (m : Int) ≤ l) (hone : nstep = true ∨ m = 1) {x r : Nat → Nat}
    {junk : String → Nat → Cell V} {one : V → Bool} {t' : Table V} {b : Batch V}
    (hs : Table.sampleAdapted (Builder.adaptors one cfg.useTerminal ["obs"]) count m x r junk t = (t', .ok b))
    (num : V → K) (qt : Dict String (Cell V) → List K) (hqt : ∀ row, qt row ≠ []) (gamma scale : K) :
    ∃ T : List K, dqnBegin num qt gamma scale m b = .ok T ∧ T.length = count * m ∧
      ∀ q, q < count → ∃ i t v a r last ended best, Stretch w.log i t m v a r last ended ∧
        best ∈ qt [("obs", .row last)] ∧ (∀ y ∈ qt [("obs", .row last)], y ≤ best) ∧
        ∀ j, j < m → RowHas b (q * m + j) (v j) (a j) ∧
          T[q * m + j]? = some (nStep gamma scale (fun j => num (k.reward (r j))) m j (if ended then 0 else best)) := by
  obtain ⟨runs, x, rew, mk, hsh, hdel⟩ := run_shows (names_ok cfg.useTerminal) rfl hlk hc hr (hist_environment hH) hadd hm hmin hone hs
  obtain ⟨T, h1, h2, h3⟩ := dqn_shown hsh (by simp) (by simp) hm num qt hqt gamma scale
  refine ⟨T, h1, h2, fun q hq => ?_⟩
  have hg := List.getElem?_eq_getElem (show q < runs.length by rw [hsh.lruns]; exact hq)
  obtain ⟨rr, last, x, best, e1, e2, e3, e4, e5, e6⟩ := h3 q _ hg
  obtain ⟨a, ss, d1, d2⟩ := hdel q _ hg
  obtain ⟨i, t, v, act, r, lv, g1, g2, g3, rfl⟩ := run_stretch hH d1 d2 hm (hsh.run q _ hg) (hsh.row q _ hg) num e1 e2 e3
  refine ⟨i, t, v, act, r, lv, last.ends, best, g1, e4, e5, fun j hj => ⟨g3 j hj, ?_⟩⟩
  rw [e6 j hj, nStep_congr g2]

theorem hist_sac (hlk : cfg.lengthKey = "actions") {nstep : Bool} {maxlen : Int}
    (hc : Created (Builder.columns nstep cfg.useTerminal ["obs"]) maxlen "actions" t0)
    {ops : List (Op V)} {t : Table V} (hr : Run t0 ops t) {w : Wrapper V} {h : List (Step V M)} {T : Int → Nat × Nat}
    (hH : GymRun.Hist k w h T)
    (hadd : ∀ e ∈ added (acts "actions" ops), ∃ a ss, (a, ss) ∈ delivered cfg [] h ∧ e = asEntry cfg (a, ss)) {count m : Nat} (hm : 0 < m)
    (hmin : m = 1 ∨ ∃ l, cfg.minLength = some l ∧ (m : Int) ≤ l) (hone : nstep = true ∨ m = 1) {x r : Nat → Nat}
    {junk : String → Nat → Cell V} {one : V → Bool} {t' : Table V} {b : Batch V}
    (hs : Table.sampleAdapted (Builder.adaptors one cfg.useTerminal ["obs"]) count m x r junk t = (t', .ok b))
    (num : V → K) (nets : SacNets V K A) (gamma alpha scale : K) (masking : Bool) :
    ∃ T : List K, sacBegin num nets gamma alpha scale m masking b = .ok T ∧ T.length = count * m ∧
      ∀ q, q < count → ∃ i t v a r last ended act logp, Stretch w.log i t m v a r last ended ∧
        nets.policy q [("obs", .row last)] = (act, logp) ∧
        ∀ j, j < m → RowHas b (q * m + j) (v j) (a j) ∧
          T[q * m + j]? = some (nStep gamma scale (fun j => num (k.reward (r j))) m j (if masking = true ∧ ended = true then 0
            else min (nets.q1t act [("obs", .row last)]) (nets.q2t act [("obs", .row last)]) - alpha * logp)) := by
  obtain ⟨runs, x, rew, mk, hsh, hdel⟩ := run_shows (names_ok cfg.useTerminal) rfl hlk hc hr (hist_environment hH) hadd hm hmin hone hs
  obtain ⟨T, h1, h2, h3⟩ := sac_shown hsh (by simp) (by simp) hm num nets gamma alpha scale masking
  refine ⟨T, h1, h2, fun q hq => ?_⟩
  have hg := List.getElem?_eq_getElem (show q < runs.length by rw [hsh.lruns]; exact hq)
  obtain ⟨rr, last, x, e1, e2, e3, e6⟩ := h3 q _ hg
  obtain ⟨a, ss, d1, d2⟩ := hdel q _ hg
  obtain ⟨i, t, v, act, r, lv, g1, g2, g3, rfl⟩ := run_stretch hH d1 d2 hm (hsh.run q _ hg) (hsh.row q _ hg) num e1 e2 e3
  refine ⟨i, t, v, act, r, lv, last.ends, _, _, g1, rfl, fun j hj => ⟨g3 j hj, ?_⟩⟩
  rw [e6 j hj, nStep_congr g2]

/-- **C145**, deep Q-learning with a collector in its thread: whatever is sampled at any moment, each row of the batch gets
as its target the return that one slot of the environment really had from there on, with the rewards that it returned, up to
the end of the window, and with the value of the best action for what it showed then, unless its episode ended with that
step. -/
theorem C145_dqn (hwf : env.WF n) (hlk : cfg.lengthKey = "actions") {nstep : Bool} {maxlen : Int}
    (hc : Created (Builder.columns nstep cfg.useTerminal ["obs"]) maxlen "actions" t0)
    {ds : List GymThreads.Did} {s : GymThreads.State V M} (hl : GymThreads.Life cfg k env n t0 ds s) {count m : Nat} (hm : 0 < m)
    (hmin : m = 1 ∨ ∃ l, cfg.minLength = some l ∧ (m : Int) ≤ l) (hone : nstep = true ∨ m = 1) {x r : Nat → Nat}
    {junk : String → Nat → Cell V} {one : V → Bool} {t' : Table V} {b : Batch V}
    (hs : Table.sampleAdapted (Builder.adaptors one cfg.useTerminal ["obs"]) count m x r junk s.proxy.table = (t', .ok b))
    (num : V → K) (qt : Dict String (Cell V) → List K) (hqt : ∀ row, qt row ≠ []) (gamma scale : K) :
    ∃ T : List K, dqnBegin num qt gamma scale m b = .ok T ∧ T.length = count * m ∧
      ∀ q, q < count → ∃ i t v a r last ended best, Stretch s.wrapper.log i t m v a r last ended ∧
        best ∈ qt [("obs", .row last)] ∧ (∀ y ∈ qt [("obs", .row last)], y ≤ best) ∧
        ∀ j, j < m → RowHas b (q * m + j) (v j) (a j) ∧
          T[q * m + j]? = some (nStep gamma scale (fun j => num (k.reward (r j))) m j (if ended then 0 else best)) := by
  obtain ⟨h, T, done, want, hI⟩ := GymThreads.life_inv hwf hlk hc hl
  obtain ⟨ops, hr, hacts⟩ := hI.received
  refine hist_dqn hlk hc hr hI.hist (fun e he => ?_) hm hmin hone hs num qt hqt gamma scale
  rw [hacts] at he
  obtain ⟨⟨a, ss⟩, h1, h2⟩ := List.mem_map.1 he
  exact ⟨a, ss, by rw [hI.all]; simp [h1], h2.symm⟩

/-- **C145**, soft actor-critic with a collector in its thread. -/
theorem C145_sac (hwf : env.WF n) (hlk : cfg.lengthKey = "actions") {nstep : Bool} {maxlen : Int}
    (hc : Created (Builder.columns nstep cfg.useTerminal ["obs"]) maxlen "actions" t0)
    {ds : List GymThreads.Did} {s : GymThreads.State V M} (hl : GymThreads.Life cfg k env n t0 ds s) {count m : Nat} (hm : 0 < m)
    (hmin : m = 1 ∨ ∃ l, cfg.minLength = some l ∧ (m : Int) ≤ l) (hone : nstep = true ∨ m = 1) {x r : Nat → Nat}
    {junk : String → Nat → Cell V} {one : V → Bool} {t' : Table V} {b : Batch V}
    (hs : Table.sampleAdapted (Builder.adaptors one cfg.useTerminal ["obs"]) count m x r junk s.proxy.table = (t', .ok b))
    (num : V → K) (nets : SacNets V K A) (gamma alpha scale : K) (masking : Bool) :
    ∃ T : List K, sacBegin num nets gamma alpha scale m masking b = .ok T ∧ T.length = count * m ∧
      ∀ q, q < count → ∃ i t v a r last ended act logp, Stretch s.wrapper.log i t m v a r last ended ∧
        nets.policy q [("obs", .row last)] = (act, logp) ∧
        ∀ j, j < m → RowHas b (q * m + j) (v j) (a j) ∧
          T[q * m + j]? = some (nStep gamma scale (fun j => num (k.reward (r j))) m j (if masking = true ∧ ended = true then 0
            else min (nets.q1t act [("obs", .row last)]) (nets.q2t act [("obs", .row last)]) - alpha * logp)) := by
  obtain ⟨h, T, done, want, hI⟩ := GymThreads.life_inv hwf hlk hc hl
  obtain ⟨ops, hr, hacts⟩ := hI.received
  refine hist_sac hlk hc hr hI.hist (fun e he => ?_) hm hmin hone hs num nets gamma alpha scale masking
  rw [hacts] at he
  obtain ⟨⟨a, ss⟩, h1, h2⟩ := List.mem_map.1 he
  exact ⟨a, ss, by rw [hI.all]; simp [h1], h2.symm⟩

/-- **C145**, deep Q-learning with a collector in the main thread. -/
theorem C145_simple_dqn (hwf : env.WF n) (hlk : cfg.lengthKey = "actions") {nstep : Bool} {maxlen : Int}
    (hc : Created (Builder.columns nstep cfg.useTerminal ["obs"]) maxlen "actions" t0)
    {es : List (Event V M)} {c : Collector V M (Table V)} (hw : World cfg k env n t0 es c) {count m : Nat} (hm : 0 < m)
    (hmin : m = 1 ∨ ∃ l, cfg.minLength = some l ∧ (m : Int) ≤ l) (hone : nstep = true ∨ m = 1) {x r : Nat → Nat}
    {junk : String → Nat → Cell V} {one : V → Bool} {t' : Table V} {b : Batch V}
    (hs : Table.sampleAdapted (Builder.adaptors one cfg.useTerminal ["obs"]) count m x r junk c.proxy.table = (t', .ok b))
    (num : V → K) (qt : Dict String (Cell V) → List K) (hqt : ∀ row, qt row ≠ []) (gamma scale : K) :
    ∃ T : List K, dqnBegin num qt gamma scale m b = .ok T ∧ T.length = count * m ∧
      ∀ q, q < count → ∃ i t v a r last ended best, Stretch c.wrapper.log i t m v a r last ended ∧
        best ∈ qt [("obs", .row last)] ∧ (∀ y ∈ qt [("obs", .row last)], y ≤ best) ∧
        ∀ j, j < m → RowHas b (q * m + j) (v j) (a j) ∧
          T[q * m + j]? = some (nStep gamma scale (fun j => num (k.reward (r j))) m j (if ended then 0 else best)) := by
  obtain ⟨hl, hS, T, hH, -⟩ := world_inv hwf hw
  obtain ⟨-, ops, hr, hacts⟩ := life_run (names_ok cfg.useTerminal) rfl hlk hc hl (hist_environment hH) (hist_ids hH)
  refine hist_dqn hlk hc hr hH (fun e he => ?_) hm hmin hone hs num qt hqt gamma scale
  rw [hacts, added_eventActs] at he
  obtain ⟨⟨a, ss⟩, h1, h2⟩ := List.mem_map.1 he
  exact ⟨a, ss, h1, h2.symm⟩

/-- **C145**, soft actor-critic with a collector in the main thread. -/
theorem C145_simple_sac (hwf : env.WF n) (hlk : cfg.lengthKey = "actions") {nstep : Bool} {maxlen : Int}
    (hc : Created (Builder.columns nstep cfg.useTerminal ["obs"]) maxlen "actions" t0)
    {es : List (Event V M)} {c : Collector V M (Table V)} (hw : World cfg k env n t0 es c) {count m : Nat} (hm : 0 < m)
    (hmin : m = 1 ∨ ∃ l, cfg.minLength = some l ∧ (m : Int) ≤ l) (hone : nstep = true ∨ m = 1) {x r : Nat → Nat}
    {junk : String → Nat → Cell V} {one : V → Bool} {t' : Table V} {b : Batch V}
    (hs : Table.sampleAdapted (Builder.adaptors one cfg.useTerminal ["obs"]) count m x r junk c.proxy.table = (t', .ok b))
    (num : V → K) (nets : SacNets V K A) (gamma alpha scale : K) (masking : Bool) :
    ∃ T : List K, sacBegin num nets gamma alpha scale m masking b = .ok T ∧ T.length = count * m ∧
      ∀ q, q < count → ∃ i t v a r last ended act logp, Stretch c.wrapper.log i t m v a r last ended ∧
        nets.policy q [("obs", .row last)] = (act, logp) ∧
        ∀ j, j < m → RowHas b (q * m + j) (v j) (a j) ∧
          T[q * m + j]? = some (nStep gamma scale (fun j => num (k.reward (r j))) m j (if masking = true ∧ ended = true then 0
            else min (nets.q1t act [("obs", .row last)]) (nets.q2t act [("obs", .row last)]) - alpha * logp)) := by
  obtain ⟨hl, hS, T, hH, -⟩ := world_inv hwf hw
  obtain ⟨-, ops, hr, hacts⟩ := life_run (names_ok cfg.useTerminal) rfl hlk hc hl (hist_environment hH) (hist_ids hH)
  refine hist_sac hlk hc hr hH (fun e he => ?_) hm hmin hone hs num nets gamma alpha scale masking
  rw [hacts, added_eventActs] at he
  obtain ⟨⟨a, ss⟩, h1, h2⟩ := List.mem_map.1 he
  exact ⟨a, ss, h1, h2.symm⟩

end

/-! ## A concrete case: the environment of `GymRun.ExG` with a table for rollouts of two steps -/

namespace Ex

open ExG

def cfg2 : ProxyCfg ℚ := ⟨some 2, "actions", false, fun b => if b then 1 else 0⟩
def t2 : Table ℚ := (Table.new (Builder.columns true false ["obs"]) 100 (.uniform {}) (.fifo {}) "actions").1

theorem created2 : Created (Builder.columns true false ["obs"]) 100 "actions" t2 :=
  ⟨by decide, _, _, .uniform, .fifo true true, Prod.ext rfl (by decide +kernel)⟩

def d0 : Collector ℚ Unit (Table ℚ) := ⟨Wrapper.new 2, none, Proxy.new t2, []⟩
def d1 : Collector ℚ Unit (Table ℚ) := okOr (tryOut k env 2 agent d0) d0
def round2 (c : Collector ℚ Unit (Table ℚ)) : Except Err (Collector ℚ Unit (Table ℚ)) :=
  collectData cfg2 k env agent (fun a ep t => Table.addSequence [] a ep t) c
def d2 : Collector ℚ Unit (Table ℚ) := okOr (round2 d1) d0
def d3 : Collector ℚ Unit (Table ℚ) := okOr (round2 d2) d0
def d4 : Collector ℚ Unit (Table ℚ) := okOr (round2 d3) d0
def d5 : Collector ℚ Unit (Table ℚ) := okOr (round2 d4) d0

theorem world1 : World cfg2 k env 2 t2 [] d1 := .tryOut .new (eq_ok d0 (by decide +kernel))

theorem next {es : List (Event ℚ Unit)} {c c' : Collector ℚ Unit (Table ℚ)} (hw : World cfg2 k env 2 t2 es c)
    (hc : c' = okOr (round2 c) d0) (h1 : c.obs.isSome = true) (h2 : (seen c).keys.Nodup) (h3 : isOk (round2 c) = true) :
    World cfg2 k env 2 t2 (es ++ [ev c]) c' := by
  subst hc
  refine World.collect (agent := agent) (fun _ => []) hw ?_ rfl (answers h2) (eq_ok d0 h3)
  unfold seen
  cases h : c.obs with
  | none => simp [h] at h1
  | some o => rfl

theorem world5 : World cfg2 k env 2 t2 [ev d1, ev d2, ev d3, ev d4] d5 :=
  next (es := [_, _, _]) (next (es := [_, _]) (next (es := [_]) (next (es := []) world1 rfl
    (by decide +kernel) (by decide +kernel) (by decide +kernel)) rfl
    (by decide +kernel) (by decide +kernel) (by decide +kernel)) rfl
    (by decide +kernel) (by decide +kernel) (by decide +kernel)) rfl
    (by decide +kernel) (by decide +kernel) (by decide +kernel)

/-- A batch of two rollouts of two steps: one of each slot. -/
def batch : Except Err (Batch ℚ) :=
  (Table.sampleAdapted (Builder.adaptors (· == 1) false ["obs"]) 2 2 id (fun i => i) (fun _ _ => .bit false) d5.proxy.table).2

example : (batch.toOption.map fun b => (b.get? "observation", b.get? "actions", b.get? "rewards"))
    = some (some (.obs [("obs", [.row 2, .row 3, .row 103, .row 104])]), some (.col [.row (-4), .row (-4), .row (-6), .row (-6)]),
      some (.col [.row 3, .row 4, .row 40, .row 50])) := by decide +kernel

/-- Both episodes ended with their second step: there is nothing of the value of the final observations in the targets. -/
example : (batch.toOption.map fun b => dqnBegin id (fun _ => [3, 8]) (1 / 2) 1 2 b) = some (.ok [5, 4, 65, 50]) := by
  decide +kernel

def netsE : SacNets ℚ ℚ ℚ := ⟨fun _ x => (match x.get? "obs" with | some (.row v) => v | _ => 0, 1), fun a _ => a, fun a _ => a + 1⟩

/-- Without the masks, the final observations 1004 and 2005 give the values 1003 and 2004. -/
example : (batch.toOption.map fun b => sacBegin id netsE (1 / 2) 1 1 2 false b)
    = some (.ok [5 + 1003 / 4, 4 + 1003 / 2, 65 + 501, 50 + 1002]) := by decide +kernel

/-- `C145_simple_dqn` and `C145_simple_sac` apply to it. -/
example {t' : Table ℚ} {b : Batch ℚ} {count : Nat} {x r : Nat → Nat} {junk : String → Nat → Cell ℚ}
    (hs : Table.sampleAdapted (Builder.adaptors (· == 1) false ["obs"]) count 2 x r junk d5.proxy.table = (t', .ok b)) :=
  C145_simple_dqn env_wf rfl created2 world5 (by decide) (.inr ⟨2, rfl, by decide⟩) (.inl rfl) hs (id : ℚ → ℚ) (fun _ => [3, 8])
    (by simp) (1 / 2) 1

example {t' : Table ℚ} {b : Batch ℚ} {count : Nat} {x r : Nat → Nat} {junk : String → Nat → Cell ℚ}
    (hs : Table.sampleAdapted (Builder.adaptors (· == 1) false ["obs"]) count 2 x r junk d5.proxy.table = (t', .ok b)) :=
  C145_simple_sac env_wf rfl created2 world5 (by decide) (.inr ⟨2, rfl, by decide⟩) (.inl rfl) hs (id : ℚ → ℚ) netsE (1 / 2) 1 1 true

/-- The threaded collector of `GymThreads.ExT`, with an episode in the memory and another on its way. -/
example {t' : Table ℚ} {b : Batch ℚ} {count : Nat} {x r : Nat → Nat} {junk : String → Nat → Cell ℚ}
    (hs : Table.sampleAdapted (Builder.adaptors (· == 1) false ["obs"]) count 1 x r junk GymThreads.ExT.s4.proxy.table
      = (t', .ok b)) :=
  C145_dqn env_wf rfl created GymThreads.ExT.life4 (by decide) (.inl rfl) (.inr rfl) hs (id : ℚ → ℚ) (fun _ => [3, 8])
    (by simp) (1 / 2) 1

example {t' : Table ℚ} {b : Batch ℚ} {count : Nat} {x r : Nat → Nat} {junk : String → Nat → Cell ℚ}
    (hs : Table.sampleAdapted (Builder.adaptors (· == 1) false ["obs"]) count 1 x r junk GymThreads.ExT.s4.proxy.table
      = (t', .ok b)) :=
  C145_sac env_wf rfl created GymThreads.ExT.life4 (by decide) (.inl rfl) (.inr rfl) hs (id : ℚ → ℚ) netsE (1 / 2) 1 1 true

/-- A step that did not end the episode of its slot gets the value of the best action for what was shown after it. -/
example : ((Table.sampleAdapted (Builder.adaptors (· == 1) false ["obs"]) 1 1 (fun _ => 2) (fun _ => 0) (fun _ _ => .bit false)
      c5.proxy.table).2.toOption.map fun b => (b.get? "observation", dqnBegin id (fun _ => [3, 8]) (1 / 2) 1 1 b))
    = some (some (.obs [("obs", [.row 103])]), .ok [40 + 4]) := by decide +kernel

end Ex

end Verif.GymTargets
