import Verif.Model.Wrappers
import Verif.Props.Logging
import Mathlib.Data.List.Basic

/-!
# C31, C78: the logging wrapper
-/

namespace Verif

namespace Dict
variable {κ : Type u} {α : Type v} [DecidableEq κ]

theorem mem_set {d : Dict κ α} {k : κ} {v : α} {p : κ × α} (h : p ∈ d.set k v) : p = (k, v) ∨ p ∈ d := by
  induction d with
  | nil => simpa [Dict.set] using h
  | cons q d ih =>
    obtain ⟨k', v'⟩ := q
    unfold Dict.set at h
    split at h
    · rename_i hk
      rcases List.mem_cons.1 h with h | h
      · left; rw [h, hk]
      · right; exact List.mem_cons_of_mem _ h
    · rcases List.mem_cons.1 h with h | h
      · right; rw [h]; exact List.mem_cons_self
      · rcases ih h with h | h
        · exact Or.inl h
        · exact Or.inr (List.mem_cons_of_mem _ h)

theorem set_set {d : Dict κ α} {k : κ} {a b : α} : (d.set k a).set k b = d.set k b := by
  induction d with
  | nil => simp [Dict.set]
  | cons q d ih =>
    obtain ⟨k', v'⟩ := q
    by_cases h : k' = k
    · simp [Dict.set, h]
    · simp [Dict.set, h, ih]

end Dict

theorem Res.forEach_rel {σ : Type u} {α : Type v} (R : σ → σ → Prop) (hr : ∀ s, R s s)
    (ht : ∀ a b c, R a b → R b c → R a c) {xs : List α} {body : α → σ → Res σ Unit}
    (hb : ∀ x ∈ xs, ∀ s, R s (body x s).1) (s : σ) : R s (Res.forEach xs body s).1 := by
  induction xs generalizing s with
  | nil => exact hr s
  | cons x xs ih =>
    unfold Res.forEach
    have h1 := hb x (by simp) s
    rcases h : body x s with ⟨s', r⟩
    rw [h] at h1
    cases r with
    | error e => exact h1
    | ok a =>
      rw [Res.andThen_ok]
      exact ht _ _ _ h1 (ih (fun x hx => hb x (by simp [hx])) s')

theorem Res.forEach_inv {σ : Type u} {α : Type v} (P : σ → Prop) {xs : List α} {body : α → σ → Res σ Unit}
    (hb : ∀ x ∈ xs, ∀ s, P s → P (body x s).1 ∧ (body x s).2 = .ok ()) (s : σ) (hs : P s) :
    P (Res.forEach xs body s).1 ∧ (Res.forEach xs body s).2 = .ok () := by
  induction xs generalizing s with
  | nil => exact ⟨hs, rfl⟩
  | cons x xs ih =>
    unfold Res.forEach
    obtain ⟨h1, h2⟩ := hb x (by simp) s hs
    rcases h : body x s with ⟨s', r⟩
    rw [h] at h1 h2
    simp only at h1 h2
    subst h2
    rw [Res.andThen_ok]
    exact ih (fun x hx => hb x (by simp [hx])) s' h1

theorem Res.andThen_rel {σ : Type u} {α : Type v} {β : Type w} (R : σ → σ → Prop)
    (ht : ∀ a b c, R a b → R b c → R a c) {s : σ} {r : Res σ α} {f : σ → α → Res σ β} (h1 : R s r.1)
    (h2 : ∀ s' a, R s' (f s' a).1) : R s (Res.andThen r f).1 := by
  obtain ⟨s', x⟩ := r
  cases x with
  | error e => exact h1
  | ok a => exact ht _ _ _ h1 (h2 s' a)

namespace Props

variable {T : Type u} {V : Type v}

/-! ## What logging leaves alone -/

/-- Same counts, interval and wrapped proxy. -/
def SameCounts (w w' : LogWrap T) : Prop :=
  w'.inferences = w.inferences ∧ w'.episodes = w.episodes ∧ w'.interval = w.interval ∧ w'.inner = w.inner

theorem SameCounts.refl (w : LogWrap T) : SameCounts w w := ⟨rfl, rfl, rfl, rfl⟩

theorem SameCounts.trans {a b c : LogWrap T} (h : SameCounts a b) (g : SameCounts b c) : SameCounts a c :=
  ⟨g.1.trans h.1, g.2.1.trans h.2.1, g.2.2.1.trans h.2.2.1, g.2.2.2.trans h.2.2.2⟩

theorem sameCounts_forEach {α : Type w} {xs : List α} {body : α → LogWrap T → Res (LogWrap T) Unit}
    (hb : ∀ x ∈ xs, ∀ s, SameCounts s (body x s).1) (s : LogWrap T) : SameCounts s (Res.forEach xs body s).1 :=
  Res.forEach_rel SameCounts SameCounts.refl (fun _ _ _ => SameCounts.trans) hb s

theorem sameCounts_andThen {α : Type w} {s : LogWrap T} {r : Res (LogWrap T) α}
    {f : LogWrap T → α → Res (LogWrap T) Unit} (h1 : SameCounts s r.1) (h2 : ∀ s' a, SameCounts s' (f s' a).1) :
    SameCounts s (Res.andThen r f).1 :=
  Res.andThen_rel SameCounts (fun _ _ _ => SameCounts.trans) h1 h2

theorem reportOne_same (key : String) (v : LogVal) (w : LogWrap T) : SameCounts w (w.reportOne key v).1 := by
  unfold LogWrap.reportOne
  split <;> exact ⟨rfl, rfl, rfl, rfl⟩

theorem report_same (m : MetaData) (w : LogWrap T) : SameCounts w (w.report m).1 :=
  sameCounts_andThen (sameCounts_forEach (fun _ _ _ => reportOne_same _ _ _) w)
    fun w _ => sameCounts_forEach (fun _ _ _ => reportOne_same _ _ _) w

theorem writeReward_same (w : LogWrap T) : SameCounts w w.writeReward.1 := by
  unfold LogWrap.writeReward
  split
  · exact SameCounts.refl w
  · split <;> exact ⟨rfl, rfl, rfl, rfl⟩

theorem writeWindow_same (kv : String × Window) (w : LogWrap T) : SameCounts w (w.writeWindow kv).1 := by
  unfold LogWrap.writeWindow
  split
  · exact SameCounts.refl w
  · split <;> exact ⟨rfl, rfl, rfl, rfl⟩

theorem writeCumulative_same (kv : String × Rat) (w : LogWrap T) : SameCounts w (w.writeCumulative kv).1 := by
  unfold LogWrap.writeCumulative
  split <;> exact ⟨rfl, rfl, rfl, rfl⟩

theorem endCycle_same (env : CycleEnv) (w : LogWrap T) : SameCounts w (w.endCycle env).1 := by
  unfold LogWrap.endCycle
  split
  · exact SameCounts.refl w
  · refine sameCounts_andThen (SameCounts.trans (b := w.logCycle env) ⟨rfl, rfl, rfl, rfl⟩ (writeReward_same _))
      fun w _ => sameCounts_andThen (sameCounts_forEach (fun _ _ _ => ⟨rfl, rfl, rfl, rfl⟩) w)
      fun w _ => sameCounts_andThen (sameCounts_forEach (fun _ _ _ => writeWindow_same _ _) w)
      fun w _ => sameCounts_andThen (sameCounts_forEach (fun _ _ _ => writeCumulative_same _ _) w)
      fun w _ => sameCounts_andThen (sameCounts_forEach (fun _ _ _ => ⟨rfl, rfl, rfl, rfl⟩) w)
      fun w _ => ?_
    split <;> exact ⟨rfl, rfl, rfl, rfl⟩

/-- The arguments of one call of `add`, with what the clocks and timers show. -/
structure WCall (V : Type v) where
  env : CycleEnv
  obs : Dict Int (Obs V MetaData)
  resp : Dict Int (Response V)

theorem addLogs_counts (c : WCall V) (w : LogWrap T) :
    (w.addLogs c.env c.obs c.resp).1.inferences = w.inferences + c.obs.length ∧
    (w.addLogs c.env c.obs c.resp).1.episodes = w.episodes + (c.obs.length - c.resp.length) ∧
    (w.addLogs c.env c.obs c.resp).1.interval = w.interval ∧
    (w.addLogs c.env c.obs c.resp).1.inner = w.inner := by
  unfold LogWrap.addLogs
  simp only
  refine sameCounts_andThen (s := { w with
    counter := w.counter + 1
    inferences := w.inferences + c.obs.length
    episodes := w.episodes + (c.obs.length - c.resp.length) }) ?_ fun w _ => ?_
  · refine sameCounts_forEach (fun o _ w => ?_) _
    unfold LogWrap.reportObs
    split
    · exact SameCounts.refl w
    · exact report_same _ w
  · split
    · exact SameCounts.refl w
    · split
      · exact sameCounts_andThen (endCycle_same _ w) fun w _ => ⟨rfl, rfl, rfl, rfl⟩
      · exact SameCounts.refl w

/-- The wrapper after some calls; a caller that gets an exception goes on with the next call. -/
def wrapAll (innerAdd : Dict Int (Obs V MetaData) → Dict Int (Response V) → T → Res T Unit)
    (calls : List (WCall V)) (w : LogWrap T) : LogWrap T :=
  calls.foldl (fun w c => (w.add innerAdd c.env c.obs c.resp).1) w

theorem add_counts (innerAdd : Dict Int (Obs V MetaData) → Dict Int (Response V) → T → Res T Unit) (c : WCall V)
    (w : LogWrap T) :
    (w.add innerAdd c.env c.obs c.resp).1.inferences = w.inferences + c.obs.length ∧
    (w.add innerAdd c.env c.obs c.resp).1.episodes = w.episodes + (c.obs.length - c.resp.length) ∧
    (w.add innerAdd c.env c.obs c.resp).1.interval = w.interval := by
  obtain ⟨h1, h2, h3, _⟩ := addLogs_counts c w
  unfold LogWrap.add
  rcases h : w.addLogs c.env c.obs c.resp with ⟨w', r⟩
  rw [h] at h1 h2 h3
  cases r with
  | error e => exact ⟨h1, h2, h3⟩
  | ok a => exact ⟨h1, h2, h3⟩

/-- C31: after any calls, raising or not, the inference count is the number of observations seen. -/
theorem C31_inferences (innerAdd : Dict Int (Obs V MetaData) → Dict Int (Response V) → T → Res T Unit)
    (interval : Nat) (t : T) (calls : List (WCall V)) :
    (wrapAll innerAdd calls (LogWrap.new interval t)).inferences
      = ((calls.map fun c => c.obs.length).sum : Nat) := by
  suffices h : ∀ w : LogWrap T, (wrapAll innerAdd calls w).inferences
      = w.inferences + ((calls.map fun c => c.obs.length).sum : Nat) by
    rw [h]; simp [LogWrap.new]
  induction calls with
  | nil => intro w; simp [wrapAll]
  | cons c calls ih =>
    intro w
    show (wrapAll innerAdd calls _).inferences = _
    rw [ih, (add_counts innerAdd c w).1]
    simp only [List.map_cons, List.sum_cons]
    push_cast; omega

/-- The agents that are observed and get no response. -/
def unanswered (c : WCall V) : List Int := c.obs.keys.filter fun a => a ∉ c.resp.keys

/-- Agents are listed once, and every response is for an observed agent. -/
structure WCall.WF (c : WCall V) : Prop where
  obs : c.obs.keys.Nodup
  resp : c.resp.keys.Nodup
  sub : ∀ a ∈ c.resp.keys, a ∈ c.obs.keys

theorem unanswered_length {c : WCall V} (h : c.WF) :
    ((unanswered c).length : Int) = c.obs.length - c.resp.length := by
  have h1 : (c.obs.keys.filter fun a => decide (a ∈ c.resp.keys)).Perm c.resp.keys := by
    rw [List.perm_ext_iff_of_nodup (h.obs.filter _) h.resp]
    intro a
    simp only [List.mem_filter, decide_eq_true_eq]
    exact ⟨fun h => h.2, fun ha => ⟨h.sub a ha, ha⟩⟩
  have h2 := h1.length_eq
  have h3 := List.length_eq_length_filter_add (l := c.obs.keys) (fun a => decide (a ∈ c.resp.keys))
  have h4 : unanswered c = c.obs.keys.filter fun a => !decide (a ∈ c.resp.keys) := by
    unfold unanswered; congr 1; funext a; simp
  rw [h4]
  have e1 : c.obs.keys.length = c.obs.length := by simp [Dict.keys]
  have e2 : c.resp.keys.length = c.resp.length := by simp [Dict.keys]
  omega

/-- C31: after any calls, raising or not, the episode count is the number of times an agent was observed and
got no response. -/
theorem C31_episodes (innerAdd : Dict Int (Obs V MetaData) → Dict Int (Response V) → T → Res T Unit)
    (interval : Nat) (t : T) (calls : List (WCall V)) (hwf : ∀ c ∈ calls, c.WF) :
    (wrapAll innerAdd calls (LogWrap.new interval t)).episodes
      = ((calls.map fun c => (unanswered c).length).sum : Nat) := by
  suffices h : ∀ w : LogWrap T, (wrapAll innerAdd calls w).episodes
      = w.episodes + ((calls.map fun c => (unanswered c).length).sum : Nat) by
    rw [h]; simp [LogWrap.new]
  induction calls with
  | nil => intro w; simp [wrapAll]
  | cons c calls ih =>
    intro w
    show (wrapAll innerAdd calls _).episodes = _
    rw [ih (fun c hc => hwf c (by simp [hc])), (add_counts innerAdd c w).2.1]
    have := unanswered_length (hwf c (by simp))
    simp only [List.map_cons, List.sum_cons]
    push_cast; omega

/-! ## Forwarding -/

/-- The key of a histogram. -/
def isHist (key : String) : Bool := "histogram:".toList.isPrefixOf key.toList

/-- A metric key that the wrapper can deal with: its window length can be read and is not zero, and it has a
name for the writer. -/
def goodKey (key : String) : Bool :=
  (match Logs.windowLength 1000 key with
    | .ok n => decide (0 < n)
    | .error _ => false) &&
  (match LogWrap.tagOf key with
    | .ok _ => true
    | .error _ => false)

/-- Metadata the wrapper can deal with. -/
def goodMeta (m : MetaData) : Bool :=
  m.info.all (fun kv => isHist kv.1 || goodKey kv.1) &&
  m.infoLists.all (fun kv => isHist kv.1 || (goodKey kv.1 && !kv.2.isEmpty))

/-- A call the wrapper can deal with: the clocks have moved and the metadata is good. -/
def goodCall (c : WCall V) : Bool :=
  decide (c.env.cycleTime ≠ 0) && decide (c.env.sinceStart ≠ 0) &&
  c.obs.values.all fun o => match o.metadata with
    | none => true
    | some m => goodMeta m

theorem goodKey_spec {key : String} (h : goodKey key = true) :
    (∃ n, 0 < n ∧ Logs.windowLength 1000 key = .ok n) ∧ ∃ t, LogWrap.tagOf key = .ok t := by
  unfold goodKey at h
  rw [Bool.and_eq_true] at h
  obtain ⟨h1, h2⟩ := h
  constructor
  · cases hw : Logs.windowLength 1000 key with
    | error e => rw [hw] at h1; simp at h1
    | ok n => rw [hw] at h1; exact ⟨n, by simpa using h1, rfl⟩
  · cases ht : LogWrap.tagOf key with
    | error e => rw [ht] at h2; simp at h2
    | ok t => exact ⟨t, rfl⟩

/-- Logs that can be written. -/
structure LogsOk (l : Logs) : Prop where
  default : l.defaultLength = 1000
  windows : ∀ kw ∈ l.windowed, kw.2.vals ≠ [] ∧ 0 < kw.2.maxlen ∧ ∃ t, LogWrap.tagOf kw.1 = .ok t
  sums : ∀ kc ∈ l.cumulative, ∃ t, LogWrap.tagOf kc.1 = .ok t
  both : ∀ k, (l.windowed.get? k).isSome → (l.cumulative.get? k).isSome

theorem Window.append_ne_nil {w : Window} (h : 0 < w.maxlen) (x : Rat) :
    (w.append x).vals ≠ [] ∧ (w.append x).maxlen = w.maxlen := by
  unfold Window.append
  rw [if_neg (by omega)]
  constructor
  · simp only; split <;> simp
  · rfl

theorem Window.extend_ok {w : Window} (h : 0 < w.maxlen) (xs : List Rat) (hne : w.vals ≠ [] ∨ xs ≠ []) :
    (w.extend xs).vals ≠ [] ∧ (w.extend xs).maxlen = w.maxlen := by
  unfold Window.extend
  induction xs generalizing w with
  | nil => exact ⟨by simpa using hne, rfl⟩
  | cons x xs ih =>
    rw [List.foldl_cons]
    obtain ⟨h1, h2⟩ := Window.append_ne_nil h x
    obtain ⟨h3, h4⟩ := ih (w := w.append x) (by omega) (Or.inl h1)
    exact ⟨h3, h4.trans h2⟩

/-- `match v` of `pushWindow` keeps windows fit for the writer. -/
theorem match_window_ok {w : Window} (h : 0 < w.maxlen) {v : LogVal} (hv : LogVal.numbers v ≠ []) :
    (match v with
      | .many xs => w.extend xs
      | .one x => w.append x).vals ≠ [] ∧
    0 < (match v with
      | .many xs => w.extend xs
      | .one x => w.append x).maxlen := by
  cases v with
  | one x =>
    obtain ⟨h1, h2⟩ := Window.append_ne_nil h x
    exact ⟨h1, by simp only; omega⟩
  | many xs =>
    obtain ⟨h1, h2⟩ := Window.extend_ok h xs (Or.inr hv)
    exact ⟨h1, by simp only; omega⟩

theorem logWindowed_ok {l : Logs} (hl : LogsOk l) {key : String} (hk : goodKey key = true) {v : LogVal}
    (hv : LogVal.numbers v ≠ []) : LogsOk (l.logWindowed key v).1 ∧ (l.logWindowed key v).2 = .ok () := by
  obtain ⟨⟨n, hn0, hn⟩, tag⟩ := goodKey_spec hk
  unfold Logs.logWindowed
  split
  · rename_i hc
    obtain ⟨w, hw⟩ := Dict.get?_isSome_of_mem (Dict.contains_iff.1 hc)
    obtain ⟨c, hc⟩ := Option.isSome_iff_exists.1 (hl.both key (by simp [hw]))
    rw [pushWindow_eq hw hc]
    refine ⟨⟨hl.default, ?_, ?_, ?_⟩, rfl⟩
    · intro kw hkw
      rcases Dict.mem_set hkw with rfl | h
      · obtain ⟨h1, h2⟩ := match_window_ok (hl.windows _ (Dict.mem_of_get? hw)).2.1 hv
        exact ⟨h1, h2, tag⟩
      · exact hl.windows kw h
    · intro kc hkc
      rcases Dict.mem_set hkc with rfl | h
      · exact tag
      · exact hl.sums kc h
    · intro k
      simp only [Dict.get?_set]
      split
      · simp
      · exact hl.both k
  · have hd := hl.default
    rw [hd, hn]
    simp only
    rw [pushWindow_eq (w := ⟨n, []⟩) (c := 0) (by simp) (by simp)]
    refine ⟨⟨rfl, ?_, ?_, ?_⟩, rfl⟩
    · intro kw hkw
      simp only [Dict.set_set] at hkw
      rcases Dict.mem_set hkw with rfl | h
      · obtain ⟨h1, h2⟩ := match_window_ok (w := ⟨n, []⟩) hn0 hv
        exact ⟨h1, h2, tag⟩
      · exact hl.windows kw h
    · intro kc hkc
      simp only [Dict.set_set] at hkc
      rcases Dict.mem_set hkc with rfl | h
      · exact tag
      · exact hl.sums kc h
    · intro k
      simp only [Dict.set_set, Dict.get?_set]
      split
      · simp
      · exact hl.both k

theorem logHistogram_ok {l : Logs} (hl : LogsOk l) (key : String) (v : LogVal) : LogsOk (l.logHistogram key v) := by
  unfold Logs.logHistogram
  split
  · exact ⟨hl.1, hl.2, hl.3, hl.4⟩
  · split <;> exact ⟨hl.1, hl.2, hl.3, hl.4⟩

theorem reportOne_ok {w : LogWrap T} (hl : LogsOk w.logs) {key : String} {v : LogVal}
    (h : isHist key = true ∨ goodKey key = true ∧ LogVal.numbers v ≠ []) :
    LogsOk (w.reportOne key v).1.logs ∧ (w.reportOne key v).2 = .ok () := by
  unfold LogWrap.reportOne
  split
  · exact ⟨logHistogram_ok hl _ _, rfl⟩
  · rename_i hh
    rcases h with h | ⟨h1, h2⟩
    · exact absurd h hh
    · exact logWindowed_ok hl h1 h2

theorem andThen_inv {σ : Type u} {β : Type w} (P : σ → Prop) {r : Res σ Unit}
    {f : σ → Unit → Res σ β} (Q : σ → Prop) (g : Except Err β → Prop) (h1 : P r.1 ∧ r.2 = .ok ())
    (h2 : ∀ s, P s → Q (f s ()).1 ∧ g (f s ()).2) :
    Q (Res.andThen r f).1 ∧ g (Res.andThen r f).2 := by
  obtain ⟨s, x⟩ := r
  obtain ⟨h3, h4⟩ := h1
  simp only at h3 h4
  subst h4
  exact h2 s h3

theorem report_ok {w : LogWrap T} (hl : LogsOk w.logs) {m : MetaData} (hm : goodMeta m = true) :
    LogsOk (w.report m).1.logs ∧ (w.report m).2 = .ok () := by
  unfold goodMeta at hm
  rw [Bool.and_eq_true, List.all_eq_true, List.all_eq_true] at hm
  unfold LogWrap.report
  refine andThen_inv (fun w : LogWrap T => LogsOk w.logs) (fun w => LogsOk w.logs) (· = .ok ())
    (Res.forEach_inv (fun w : LogWrap T => LogsOk w.logs) ?_ w hl) fun w hl => Res.forEach_inv (fun w : LogWrap T => LogsOk w.logs) ?_ w hl
  · intro kv hkv w hl
    refine reportOne_ok hl ?_
    have := hm.1 kv hkv
    rw [Bool.or_eq_true] at this
    rcases this with h | h
    · exact Or.inl h
    · exact Or.inr ⟨h, by simp [LogVal.numbers]⟩
  · intro kv hkv w hl
    refine reportOne_ok hl ?_
    have := hm.2 kv hkv
    rw [Bool.or_eq_true, Bool.and_eq_true] at this
    rcases this with h | ⟨h, h'⟩
    · exact Or.inl h
    · exact Or.inr ⟨h, by simpa [LogVal.numbers] using h'⟩

theorem mean_ok {w : Window} (h : w.vals ≠ []) : w.mean = .ok (w.vals.sum / w.vals.length) := by
  unfold Window.mean
  rw [if_neg (by simpa using h)]

theorem logCycle_ok {w : LogWrap T} (hl : LogsOk w.logs) (env : CycleEnv) : LogsOk (w.logCycle env).logs := by
  have h : ∀ (ts : List (String × Rat × Rat)) (l : Logs), LogsOk l → LogsOk (ts.foldl (fun l t =>
      (l.logScalar ("memory/" ++ env.name ++ "/" ++ t.1 ++ "/timing/mean") t.2.1).logScalar
        ("memory/" ++ env.name ++ "/" ++ t.1 ++ "/timing/var") t.2.2) l) := by
    intro ts
    induction ts with
    | nil => exact fun l h => h
    | cons t ts ih => exact fun l h => ih _ ⟨h.1, h.2, h.3, h.4⟩
  exact h _ _ ⟨hl.1, hl.2, hl.3, hl.4⟩

theorem endCycle_ok {w : LogWrap T} (hl : LogsOk w.logs) {env : CycleEnv} (h1 : env.cycleTime ≠ 0)
    (h2 : env.sinceStart ≠ 0) : LogsOk (w.endCycle env).1.logs ∧ (w.endCycle env).2 = .ok () := by
  unfold LogWrap.endCycle
  rw [if_neg h1]
  refine andThen_inv (fun w : LogWrap T => LogsOk w.logs) (fun w => LogsOk w.logs) (· = .ok ()) ?_ fun w hl =>
    andThen_inv (fun w : LogWrap T => LogsOk w.logs) (fun w => LogsOk w.logs) (· = .ok ()) ?_ fun w hl =>
    andThen_inv (fun w : LogWrap T => LogsOk w.logs) (fun w => LogsOk w.logs) (· = .ok ()) ?_ fun w hl =>
    andThen_inv (fun w : LogWrap T => LogsOk w.logs) (fun w => LogsOk w.logs) (· = .ok ()) ?_ fun w hl =>
    andThen_inv (fun w : LogWrap T => LogsOk w.logs) (fun w => LogsOk w.logs) (· = .ok ()) ?_ fun w hl => ?_
  · have hl := logCycle_ok hl env
    unfold LogWrap.writeReward
    split
    · exact ⟨hl, rfl⟩
    · rename_i win hw
      rw [mean_ok (hl.windows _ (Dict.mem_of_get? hw)).1]
      exact ⟨hl, rfl⟩
  · exact Res.forEach_inv (fun w : LogWrap T => LogsOk w.logs) (fun _ _ _ h => ⟨h, rfl⟩) w hl
  · refine Res.forEach_inv (fun w : LogWrap T => LogsOk w.logs) (fun kw hkw w' h => ?_) w hl
    obtain ⟨h3, _, t, h4⟩ := hl.windows kw hkw
    unfold LogWrap.writeWindow
    rw [h4, mean_ok h3]
    exact ⟨h, rfl⟩
  · refine Res.forEach_inv (fun w : LogWrap T => LogsOk w.logs) (fun kw hkw w' h => ?_) w hl
    obtain ⟨t, h4⟩ := hl.sums kw hkw
    unfold LogWrap.writeCumulative
    rw [h4]
    exact ⟨h, rfl⟩
  · exact Res.forEach_inv (fun w : LogWrap T => LogsOk w.logs) (fun _ _ _ h => ⟨h, rfl⟩) w hl
  · rw [if_neg h2]
    exact ⟨hl, rfl⟩

theorem addLogs_ok {w : LogWrap T} (hl : LogsOk w.logs) (hi : w.interval ≠ 0) {c : WCall V} (hc : goodCall c = true) :
    LogsOk (w.addLogs c.env c.obs c.resp).1.logs ∧ (w.addLogs c.env c.obs c.resp).2 = .ok () := by
  unfold goodCall at hc
  rw [Bool.and_eq_true, Bool.and_eq_true, List.all_eq_true] at hc
  obtain ⟨⟨h1, h2⟩, h3⟩ := hc
  unfold LogWrap.addLogs
  refine andThen_inv (fun w' : LogWrap T => LogsOk w'.logs ∧ w'.interval = w.interval) (fun w => LogsOk w.logs) (· = .ok ())
    (Res.forEach_inv (fun w' : LogWrap T => LogsOk w'.logs ∧ w'.interval = w.interval) ?_ _ ⟨hl, rfl⟩) ?_
  · intro o ho w' hl'
    have := h3 o ho
    unfold LogWrap.reportObs
    cases hm : o.metadata with
    | none => exact ⟨hl', rfl⟩
    | some m =>
      rw [hm] at this
      obtain ⟨h4, h5⟩ := report_ok hl'.1 this
      exact ⟨⟨h4, (report_same m w').2.2.1.trans hl'.2⟩, h5⟩
  · intro w' hl'
    rw [if_neg (by rw [hl'.2]; exact hi)]
    split
    · exact andThen_inv (fun w : LogWrap T => LogsOk w.logs) (fun w => LogsOk w.logs) (· = .ok ())
        (endCycle_ok hl'.1 (by simpa using h1) (by simpa using h2)) fun w hl => ⟨hl, rfl⟩
    · exact ⟨hl'.1, rfl⟩

/-- C31, what does hold: while the metadata has readable keys and no empty lists, the clocks have moved and the
log interval is not zero, the wrapper is transparent: after any calls the wrapped proxy is as if it had been
called directly, and every call returns or raises just what the proxy does. (Missing: other metadata, for which
`C31_false` shows that the call is not forwarded.) -/
theorem C31_forwards_partial (innerAdd : Dict Int (Obs V MetaData) → Dict Int (Response V) → T → Res T Unit)
    {interval : Nat} (hi : interval ≠ 0) (t : T) (calls : List (WCall V)) (hg : ∀ c ∈ calls, goodCall c = true)
    (c : WCall V) (hc : goodCall c = true) :
    (wrapAll innerAdd calls (LogWrap.new interval t)).inner
      = calls.foldl (fun t c => (innerAdd c.obs c.resp t).1) t ∧
    ((wrapAll innerAdd calls (LogWrap.new interval t)).add innerAdd c.env c.obs c.resp).2
      = (innerAdd c.obs c.resp (calls.foldl (fun t c => (innerAdd c.obs c.resp t).1) t)).2 := by
  have step : ∀ (c : WCall V) (w : LogWrap T), goodCall c = true → LogsOk w.logs → w.interval ≠ 0 →
      LogsOk (w.add innerAdd c.env c.obs c.resp).1.logs ∧
      (w.add innerAdd c.env c.obs c.resp).1.inner = (innerAdd c.obs c.resp w.inner).1 ∧
      (w.add innerAdd c.env c.obs c.resp).2 = (innerAdd c.obs c.resp w.inner).2 := by
    intro c w hc hl hi
    obtain ⟨h1, h2⟩ := addLogs_ok hl hi hc
    obtain ⟨_, _, _, h3⟩ := addLogs_counts c w
    unfold LogWrap.add
    rcases h : w.addLogs c.env c.obs c.resp with ⟨w', r⟩
    rw [h] at h1 h2 h3
    simp only at h1 h2 h3
    subst h2
    rw [Res.andThen_ok, Res.lift_fst, Res.lift_snd, h3]
    exact ⟨h1, rfl, rfl⟩
  have all : ∀ (calls : List (WCall V)) (w : LogWrap T), (∀ c ∈ calls, goodCall c = true) → LogsOk w.logs →
      w.interval ≠ 0 → LogsOk (wrapAll innerAdd calls w).logs ∧ (wrapAll innerAdd calls w).interval ≠ 0 ∧
        (wrapAll innerAdd calls w).inner = calls.foldl (fun t c => (innerAdd c.obs c.resp t).1) w.inner := by
    intro calls
    induction calls with
    | nil => exact fun w _ h1 h2 => ⟨h1, h2, rfl⟩
    | cons c calls ih =>
      intro w hg hl hi
      obtain ⟨h1, h2, _⟩ := step c w (hg c (by simp)) hl hi
      have h3 := ih (w.add innerAdd c.env c.obs c.resp).1 (fun c hc => hg c (by simp [hc])) h1
        (by rw [(add_counts innerAdd c w).2.2]; exact hi)
      rw [h2] at h3
      exact h3
  have h0 : LogsOk (LogWrap.new interval t).logs :=
    ⟨rfl, by simp [LogWrap.new, Logs.new], by simp [LogWrap.new, Logs.new], by simp [LogWrap.new, Logs.new, Dict.get?]⟩
  obtain ⟨h1, h2, h3⟩ := all calls (LogWrap.new interval t) hg h0 hi
  refine ⟨h3, ?_⟩
  rw [(step c _ hc h1 h2).2.2, h3]
  rfl

/-- Whenever the logging raises, the wrapped proxy does not see the call. -/
theorem C31_not_forwarded (innerAdd : Dict Int (Obs V MetaData) → Dict Int (Response V) → T → Res T Unit)
    (c : WCall V) (w : LogWrap T) {e : Err} (h : (w.addLogs c.env c.obs c.resp).2 = .error e) :
    (w.add innerAdd c.env c.obs c.resp).2 = .error e ∧ (w.add innerAdd c.env c.obs c.resp).1.inner = w.inner := by
  obtain ⟨_, _, _, h3⟩ := addLogs_counts c w
  unfold LogWrap.add
  rcases h' : w.addLogs c.env c.obs c.resp with ⟨w', r⟩
  rw [h'] at h h3
  simp only at h
  subst h
  exact ⟨rfl, h3⟩

namespace ExL

/-- A wrapped proxy that never raises and counts the calls it gets. -/
def counting : Dict Int (Obs Rat MetaData) → Dict Int (Response Rat) → Nat → Res Nat Unit :=
  fun _ _ n => (n + 1, .ok ())

def env : CycleEnv := ⟨1, 1, "memproxy", [("add", 1, 0)]⟩

/-- One agent that starts an episode, with metadata. -/
def start (m : MetaData) : WCall Rat := ⟨env, [(7, ⟨[], .initial, [("obs", 1)], some m⟩)], [(7, ⟨[("a", 1)], []⟩)]⟩

/-- Two agents, one of which ends. -/
def ending (m : MetaData) : WCall Rat :=
  ⟨env, [(7, ⟨[("reward", 1)], .terminal, [("obs", 1)], some m⟩), (8, ⟨[], .initial, [("obs", 1)], none⟩)],
    [(8, ⟨[("a", 1)], []⟩)]⟩

def good : MetaData := ⟨[("episode/reward", 3), ("windowed[2]:speed", 4), ("histogram:x", 1)], [("lens", [1, 2])]⟩

end ExL

open ExL in
/-- C31 does not hold: when the metadata of an observation has an empty list, or a key with a window length and
no name, the end of the cycle raises and the call is not forwarded, though the wrapped proxy would have taken
it. -/
theorem C31_false :
    (((LogWrap.new 1 0).add counting env (start ⟨[], [("episode/lens", [])]⟩).obs (start good).resp).2,
      ((LogWrap.new 1 0).add counting env (start ⟨[], [("episode/lens", [])]⟩).obs (start good).resp).1.inner)
      = (.error .zeroDivision, 0) ∧
    (((LogWrap.new 1 0).add counting env (start ⟨[("windowed[5]", 1)], []⟩).obs (start good).resp).2,
      ((LogWrap.new 1 0).add counting env (start ⟨[("windowed[5]", 1)], []⟩).obs (start good).resp).1.inner)
      = (.error .indexError, 0) ∧
    (counting (start ⟨[], [("episode/lens", [])]⟩).obs (start good).resp 0) = (1, .ok ()) := by
  decide +kernel

open ExL in
example := C31_forwards_partial counting (interval := 2) (by decide) 0 [start good, ending good] (by decide +kernel)
  (start good) (by decide +kernel)

open ExL in
example : (wrapAll counting [start good, ending good] (LogWrap.new 2 0)).inner = 2 := by decide +kernel

open ExL in
example : (wrapAll counting [start good, ending good] (LogWrap.new 2 0)).episodes = 1 ∧
    (wrapAll counting [start good, ending good] (LogWrap.new 2 0)).inferences = 3 := by decide +kernel

open ExL in
example := C31_episodes counting 2 0 [start good, ending good] (by
  intro c hc
  simp only [List.mem_cons, List.not_mem_nil, or_false] at hc
  rcases hc with rfl | rfl <;> exact ⟨by decide, by decide, by decide⟩)

/-! ## C78: reports -/

/-- The same windows and totals. -/
def SameWin (l l' : Logs) : Prop :=
  l'.windowed = l.windowed ∧ l'.cumulative = l.cumulative ∧ l'.defaultLength = l.defaultLength

theorem SameWin.trans {a b c : Logs} (h : SameWin a b) (g : SameWin b c) : SameWin a c :=
  ⟨g.1.trans h.1, g.2.1.trans h.2.1, g.2.2.trans h.2.2⟩

theorem pushWindow_sameWin {l l' : Logs} (h : SameWin l l') (key : String) (v : LogVal) :
    SameWin (l.pushWindow key v).1 (l'.pushWindow key v).1 := by
  cases l; cases l'
  obtain ⟨h1, h2, h3⟩ := h
  simp only at h1 h2 h3
  subst h1 h2 h3
  unfold Logs.pushWindow
  simp only
  split
  · exact ⟨rfl, rfl, rfl⟩
  · split <;> exact ⟨rfl, rfl, rfl⟩

theorem logWindowed_sameWin {l l' : Logs} (h : SameWin l l') (key : String) (v : LogVal) :
    SameWin (l.logWindowed key v).1 (l'.logWindowed key v).1 := by
  have h' := h
  cases l; cases l'
  obtain ⟨h1, h2, h3⟩ := h
  simp only at h1 h2 h3
  subst h1 h2 h3
  unfold Logs.logWindowed
  simp only
  split
  · exact pushWindow_sameWin h' key v
  · split
    · exact h'
    · refine pushWindow_sameWin ?_ key v
      exact ⟨rfl, rfl, rfl⟩

/-- What a call reports, histograms left out, in order. -/
def metaCalls (m : MetaData) : List (String × LogVal) :=
  ((m.info.map fun kv => (kv.1, LogVal.one kv.2)) ++ m.infoLists.map fun kv => (kv.1, LogVal.many kv.2)).filter
    fun kv => !isHist kv.1

/-- What a call of `add` reports. -/
def callReports (c : WCall V) : List (String × LogVal) :=
  c.obs.values.flatMap fun o => match o.metadata with
    | none => []
    | some m => metaCalls m

theorem logAll_append (a b : List (String × LogVal)) (l : Logs) : logAll (a ++ b) l = logAll b (logAll a l) := by
  simp [logAll]

/-- `forEach` of reports that succeed logs them in order. -/
theorem forEach_report {α : Type w} (key : α → String) (val : α → LogVal) (xs : List α) (w : LogWrap T) (l : Logs)
    (h : SameWin l w.logs) (hok : (Res.forEach xs (fun x => LogWrap.reportOne (key x) (val x)) w).2 = .ok ()) :
    SameWin (logAll ((xs.map fun x => (key x, val x)).filter fun kv => !isHist kv.1) l)
      (Res.forEach xs (fun x => LogWrap.reportOne (key x) (val x)) w).1.logs := by
  induction xs generalizing w l with
  | nil => exact h
  | cons x xs ih =>
    unfold Res.forEach at hok ⊢
    rcases hr : w.reportOne (key x) (val x) with ⟨w', r⟩
    rw [hr] at hok
    cases r with
    | error e => simp [Res.andThen] at hok
    | ok a =>
      rw [Res.andThen_ok] at hok ⊢
      unfold LogWrap.reportOne at hr
      rw [List.map_cons]
      by_cases hh : isHist (key x) = true
      · rw [List.filter_cons_of_neg (by simpa using hh)]
        refine ih _ l ?_ hok
        rw [if_pos (show List.isPrefixOf _ _ = true from hh)] at hr
        injection hr with hr _
        subst hr
        unfold Logs.logHistogram
        split
        · exact h
        · split <;> exact h
      · rw [List.filter_cons_of_pos (by simpa using hh)]
        rw [if_neg (show ¬ List.isPrefixOf _ _ = true from hh)] at hr
        refine ih _ (logAll [(key x, val x)] l) ?_ hok
        injection hr with hr _
        subst hr
        exact logWindowed_sameWin h _ _

theorem report_sameWin (m : MetaData) (w : LogWrap T) (l : Logs) (h : SameWin l w.logs)
    (hok : (w.report m).2 = .ok ()) : SameWin (logAll (metaCalls m) l) (w.report m).1.logs := by
  unfold LogWrap.report at hok ⊢
  unfold metaCalls
  rw [List.filter_append, logAll_append]
  rcases hr : Res.forEach m.info (fun kv => LogWrap.reportOne kv.1 (.one kv.2)) w with ⟨w', r⟩
  rw [hr] at hok
  cases r with
  | error e => simp [Res.andThen] at hok
  | ok a =>
    rw [Res.andThen_ok] at hok ⊢
    have h1 := forEach_report (fun kv : String × Rat => kv.1) (fun kv => LogVal.one kv.2) m.info w l h (by rw [hr])
    rw [hr] at h1
    exact forEach_report (fun kv : String × List Rat => kv.1) (fun kv => LogVal.many kv.2) m.infoLists w' _ h1 hok

theorem andThen_ok_fst {σ : Type u} {r : Res σ Unit} {f : σ → Unit → Res σ Unit} (h : r.2 = .ok ()) :
    Res.andThen r f = f r.1 () := by
  obtain ⟨s, x⟩ := r
  simp only at h
  subst h; rfl

theorem endCycle_sameWin (env : CycleEnv) (w : LogWrap T) : SameWin w.logs (w.endCycle env).1.logs := by
  have refl : ∀ w : LogWrap T, SameWin w.logs w.logs := fun _ => ⟨rfl, rfl, rfl⟩
  have bind : ∀ {s : LogWrap T} {r : Res (LogWrap T) Unit} {f : LogWrap T → Unit → Res (LogWrap T) Unit},
      SameWin s.logs r.1.logs → (∀ s' a, SameWin s'.logs (f s' a).1.logs) → SameWin s.logs (Res.andThen r f).1.logs :=
    fun h1 h2 => Res.andThen_rel (fun a b : LogWrap T => SameWin a.logs b.logs) (fun _ _ _ => SameWin.trans) h1 h2
  have each : ∀ {α : Type} {xs : List α} {body : α → LogWrap T → Res (LogWrap T) Unit},
      (∀ x ∈ xs, ∀ s, SameWin s.logs (body x s).1.logs) → ∀ s, SameWin s.logs (Res.forEach xs body s).1.logs :=
    fun h s => Res.forEach_rel (fun a b : LogWrap T => SameWin a.logs b.logs) refl (fun _ _ _ => SameWin.trans) h s
  unfold LogWrap.endCycle
  split
  · exact refl w
  · refine bind (SameWin.trans (b := (w.logCycle env).logs) ?_ ?_) fun w _ =>
      bind (each (fun _ _ w => refl w) w) fun w _ =>
      bind (each (fun _ _ w => ?_) w) fun w _ =>
      bind (each (fun _ _ w => ?_) w) fun w _ =>
      bind (each (fun _ _ w => refl w) w) fun w _ => ?_
    · have h : ∀ (ts : List (String × Rat × Rat)) (l : Logs), SameWin l (ts.foldl (fun l t =>
          (l.logScalar ("memory/" ++ env.name ++ "/" ++ t.1 ++ "/timing/mean") t.2.1).logScalar
            ("memory/" ++ env.name ++ "/" ++ t.1 ++ "/timing/var") t.2.2) l) := by
        intro ts
        induction ts with
        | nil => exact fun l => ⟨rfl, rfl, rfl⟩
        | cons t ts ih => exact fun l => SameWin.trans ⟨rfl, rfl, rfl⟩ (ih _)
      exact SameWin.trans ⟨rfl, rfl, rfl⟩ (h _ _)
    · unfold LogWrap.writeReward
      split
      · exact refl _
      · split <;> exact refl _
    · unfold LogWrap.writeWindow
      split
      · exact refl _
      · split <;> exact refl _
    · unfold LogWrap.writeCumulative
      split <;> exact refl _
    · split <;> exact refl _

theorem addLogs_sameWin {w : LogWrap T} (hl : LogsOk w.logs) {c : WCall V}
    (hc : goodCall c = true) (l : Logs) (h : SameWin l w.logs) :
    SameWin (logAll (callReports c) l) (w.addLogs c.env c.obs c.resp).1.logs := by
  have hc' := hc
  unfold goodCall at hc
  rw [Bool.and_eq_true, Bool.and_eq_true, List.all_eq_true] at hc
  obtain ⟨⟨h1, h2⟩, h3⟩ := hc
  have key : ∀ (os : List (Obs V MetaData)) (w : LogWrap T) (l : Logs), (∀ o ∈ os, o ∈ c.obs.values) →
      LogsOk w.logs → SameWin l w.logs →
      let r := Res.forEach os LogWrap.reportObs w
      r.2 = .ok () ∧ SameWin (logAll (os.flatMap fun o => match o.metadata with
        | none => []
        | some m => metaCalls m) l) r.1.logs := by
    intro os
    induction os with
    | nil => exact fun w l _ _ h => ⟨rfl, h⟩
    | cons o os ih =>
      intro w l hos hl h
      have ho := h3 o (hos o (by simp))
      simp only [Res.forEach, List.flatMap_cons, logAll_append, LogWrap.reportObs]
      cases hm : o.metadata with
      | none => exact ih w l (fun o h => hos o (by simp [h])) hl h
      | some m =>
        rw [hm] at ho
        obtain ⟨h4, h5⟩ := report_ok hl ho
        simp only
        rw [andThen_ok_fst h5]
        exact ih _ _ (fun o h => hos o (by simp [h])) h4 (report_sameWin m w l h h5)
  unfold LogWrap.addLogs
  have hk := key c.obs.values { w with
    counter := w.counter + 1
    inferences := w.inferences + c.obs.length
    episodes := w.episodes + (c.obs.length - c.resp.length) } l (fun _ h => h) hl h
  simp only at hk ⊢
  rw [andThen_ok_fst hk.1]
  refine SameWin.trans hk.2 ?_
  split
  · exact ⟨rfl, rfl, rfl⟩
  · split
    · exact Res.andThen_rel (fun a b : LogWrap T => SameWin a.logs b.logs) (fun _ _ _ => SameWin.trans)
        (endCycle_sameWin _ _) fun _ _ => ⟨rfl, rfl, rfl⟩
    · exact ⟨rfl, rfl, rfl⟩

/-- After any good calls the windows and totals are those of the reported values. -/
theorem wrapAll_windows (innerAdd : Dict Int (Obs V MetaData) → Dict Int (Response V) → T → Res T Unit)
    {interval : Nat} (hi : interval ≠ 0) (t : T) (calls : List (WCall V)) (hg : ∀ c ∈ calls, goodCall c = true) :
    SameWin (logAll (calls.flatMap callReports) (Logs.new 1000))
      (wrapAll innerAdd calls (LogWrap.new interval t)).logs := by
  suffices h : ∀ (w : LogWrap T) (l : Logs), LogsOk w.logs → w.interval ≠ 0 → SameWin l w.logs →
      SameWin (logAll (calls.flatMap callReports) l) (wrapAll innerAdd calls w).logs from
    h _ _ ⟨rfl, by simp [LogWrap.new, Logs.new], by simp [LogWrap.new, Logs.new],
      by simp [LogWrap.new, Logs.new, Dict.get?]⟩ hi ⟨rfl, rfl, rfl⟩
  induction calls with
  | nil => exact fun w l _ _ h => h
  | cons c calls ih =>
    intro w l hl hi h
    have hc := hg c (by simp)
    have h1 := addLogs_sameWin hl hc l h
    obtain ⟨h2, h3⟩ := addLogs_ok hl hi hc
    have e : (w.add innerAdd c.env c.obs c.resp).1.logs = (w.addLogs c.env c.obs c.resp).1.logs := by
      unfold LogWrap.add
      rw [andThen_ok_fst h3]; rfl
    rw [List.flatMap_cons, logAll_append]
    refine ih (fun c hc => hg c (by simp [hc])) (w.add innerAdd c.env c.obs c.resp).1 _ ?_ ?_ ?_
    · rw [e]; exact h2
    · rw [(add_counts innerAdd c w).2.2]; exact hi
    · rw [e]; exact h1

/-- C78: after any calls that report a metric, `get_report` gives the last `L` reported values of the metric,
their mean, and the total of all of them, `L` being the window length of the key. -/
theorem C78_report (innerAdd : Dict Int (Obs V MetaData) → Dict Int (Response V) → T → Res T Unit)
    {interval : Nat} (hi : interval ≠ 0) (t : T) (calls : List (WCall V)) (hg : ∀ c ∈ calls, goodCall c = true)
    {key : String} {n : Nat} (hn : Logs.windowLength 1000 key = .ok n) (hh : isHist key = false)
    (hne : lastN n (loggedFor key (calls.flatMap callReports)) ≠ [])
    (hk : ∃ r ∈ calls.flatMap callReports, r.1 = key) :
    (wrapAll innerAdd calls (LogWrap.new interval t)).getReport key =
      let all := loggedFor key (calls.flatMap callReports)
      .ok ([(key, (lastN n all).sum / (lastN n all).length), (key ++ "/cumulative", all.sum)], [(key, lastN n all)]) := by
  obtain ⟨h1, h2⟩ := C47_windows hn (calls.flatMap callReports) hk
  obtain ⟨g1, g2, _⟩ := wrapAll_windows innerAdd hi t calls hg
  unfold LogWrap.getReport
  rw [g1, g2, h1, h2]
  simp only
  rw [mean_ok hne]
  have : List.isPrefixOf "histogram:".toList key.toList = false := hh
  rw [this]
  rfl

/-- C78: the key `inf_step` gives the inference count, that is the number of observations (C31), unless it is
reported as a metric. -/
theorem C78_inf_step (w : LogWrap T) (h : w.logs.windowed.get? "inf_step" = none) :
    w.getReport "inf_step" = .ok ([("inf_step", w.inferences)], []) := by
  unfold LogWrap.getReport
  rw [h]
  have : List.isPrefixOf "histogram:".toList "inf_step".toList = false := by decide +kernel
  rw [this]
  rfl

open ExL in
example := C78_report counting (interval := 2) (by decide) 0 [start good, ending good] (by decide +kernel)
  (key := "windowed[2]:speed") (n := 2) (by decide +kernel) (by decide +kernel) (by decide +kernel)
  ⟨("windowed[2]:speed", .one 4), by decide +kernel, rfl⟩

open ExL in
example : (wrapAll counting [start good, ending good] (LogWrap.new 2 0)).getReport "lens"
    = .ok ([("lens", 3/2), ("lens/cumulative", 6)], [("lens", [1, 2, 1, 2])]) := by decide +kernel

end Props
end Verif
