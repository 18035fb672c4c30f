import Verif.Model.Report
import Verif.Props.Logging
import Verif.Lemmas.Adaptors
import Mathlib.Data.List.Nodup

/-!
# Reports of logged metrics (C98)
-/

namespace Verif

namespace Report

/-! ## Tags -/

/-- The tag for a key: `_bp_step` comes before the first slash, or at the end. -/
def Tagged (k t : String) : Prop :=
  ∃ a b, k.toList = a ++ b ∧ '/' ∉ a ∧ (b = [] ∨ ∃ r, b = '/' :: r) ∧ t.toList = a ++ "_bp_step".toList ++ b

theorem splitChar_spec (c : Char) (s : List Char) :
    ∃ p ps, splitChar c s = p :: ps ∧ c ∉ p ∧ ∀ q, ∃ b, joinChar c ((p ++ q) :: ps) = p ++ q ++ b ∧ s = p ++ b ∧
      (b = [] ∨ ∃ r, b = c :: r) := by
  induction s with
  | nil => exact ⟨[], [], rfl, by simp, fun q => ⟨[], by simp [joinChar], rfl, Or.inl rfl⟩⟩
  | cons x xs ih =>
    obtain ⟨p, ps, h1, h2, h3⟩ := ih
    by_cases hx : x = c
    · subst hx
      refine ⟨[], p :: ps, by simp [splitChar, h1], by simp, fun q => ?_⟩
      obtain ⟨b, h4, h5, _⟩ := h3 []
      refine ⟨x :: xs, ?_, rfl, Or.inr ⟨xs, rfl⟩⟩
      rw [List.append_nil] at h4
      rw [List.nil_append, joinChar, h4, h5]
    · refine ⟨x :: p, ps, by simp [splitChar, h1, hx], ?_, fun q => ?_⟩
      · simp only [List.mem_cons, not_or]
        exact ⟨fun h => hx h.symm, h2⟩
      · obtain ⟨b, h4, h5, h6⟩ := h3 q
        refine ⟨b, ?_, by rw [h5]; rfl, h6⟩
        cases ps with
        | nil => simp only [joinChar] at h4 ⊢; simpa using h4
        | cons y ys => simp only [joinChar] at h4 ⊢; simpa using h4

theorem rename_tagged (k : String) : Tagged k (rename k) := by
  obtain ⟨p, ps, h1, h2, h3⟩ := splitChar_spec '/' k.toList
  obtain ⟨b, h4, h5, h6⟩ := h3 "_bp_step".toList
  refine ⟨p, b, h5, h2, h6, ?_⟩
  rw [rename, h1]
  simp only [String.toList_ofList, h4]

/-- Where the first `c` is does not depend on how one looks. -/
theorem cut_unique {c : Char} {a b a' b' : List Char} (h : a ++ b = a' ++ b') (ha : c ∉ a) (ha' : c ∉ a')
    (hb : b = [] ∨ ∃ r, b = c :: r) (hb' : b' = [] ∨ ∃ r, b' = c :: r) : a = a' ∧ b = b' := by
  induction a generalizing a' with
  | nil =>
    cases a' with
    | nil => exact ⟨rfl, by simpa using h⟩
    | cons x xs =>
      exfalso
      rcases hb with rfl | ⟨r, rfl⟩
      · simp at h
      · simp only [List.nil_append, List.cons_append, List.cons.injEq] at h
        exact ha' (by simp [h.1])
  | cons x xs ih =>
    cases a' with
    | nil =>
      exfalso
      rcases hb' with rfl | ⟨r, rfl⟩
      · simp at h
      · simp only [List.nil_append, List.cons_append, List.cons.injEq] at h
        exact ha (by simp [h.1])
    | cons y ys =>
      simp only [List.cons_append, List.cons.injEq] at h
      obtain ⟨h1, h2⟩ := ih h.2 (fun hc => ha (by simp [hc])) (fun hc => ha' (by simp [hc]))
      exact ⟨by rw [h.1, h1], h2⟩

theorem no_slash : '/' ∉ "_bp_step".toList := by decide +kernel

/-- **C98** Each key has exactly one tag, and different keys have different tags. -/
theorem C98_tags (k : String) : (∃ t, Tagged k t) ∧ (∀ t t', Tagged k t → Tagged k t' → t = t') ∧
    (∀ k' t, Tagged k t → Tagged k' t → k = k') := by
  refine ⟨⟨_, rename_tagged k⟩, ?_, ?_⟩
  · rintro t t' ⟨a, b, h1, h2, h3, h4⟩ ⟨a', b', h1', h2', h3', h4'⟩
    obtain ⟨rfl, rfl⟩ := cut_unique (h1.symm.trans h1') h2 h2' h3 h3'
    exact String.toList_inj.1 (h4.trans h4'.symm)
  · rintro k' t ⟨a, b, h1, h2, h3, h4⟩ ⟨a', b', h1', h2', h3', h4'⟩
    obtain ⟨h5, rfl⟩ := cut_unique (h4.symm.trans h4')
      (by rw [List.mem_append]; rintro (h | h); exacts [h2 h, no_slash h])
      (by rw [List.mem_append]; rintro (h | h); exacts [h2' h, no_slash h]) h3 h3'
    have h6 : a = a' := List.append_cancel_right h5
    subst h6
    exact String.toList_inj.1 (h1.trans h1'.symm)

theorem tagged_iff {k t : String} : Tagged k t ↔ t = rename k :=
  ⟨fun h => (C98_tags k).2.1 _ _ h (rename_tagged k), fun h => h ▸ rename_tagged k⟩

theorem rename_inj {k k' : String} (h : rename k = rename k') : k = k' :=
  (C98_tags k).2.2 k' _ (rename_tagged k) (h ▸ rename_tagged k')

theorem rename_cumulative (k : String) : rename (k ++ "/cumulative") = rename k ++ "/cumulative" := by
  symm
  rw [← tagged_iff]
  obtain ⟨a, b, h1, h2, h3, h4⟩ := rename_tagged k
  refine ⟨a, b ++ "/cumulative".toList, by simp [h1], h2, Or.inr ?_, by simp [h4]⟩
  rcases h3 with rfl | ⟨r, rfl⟩
  · exact ⟨"cumulative".toList, by decide +kernel⟩
  · exact ⟨r ++ "/cumulative".toList, rfl⟩

/-- No tag is one of the names that the report adds. -/
theorem rename_ne (k s : String) (c : Char) (pre post : List Char) (hs : s.toList = pre ++ c :: '/' :: post)
    (hc : c ≠ 'p') (hp : '/' ∉ pre ++ [c]) : rename k ≠ s := by
  intro h
  obtain ⟨a, b, h1, h2, h3, h4⟩ := rename_tagged k
  rw [h, hs, show pre ++ c :: '/' :: post = (pre ++ [c]) ++ ('/' :: post) by simp] at h4
  obtain ⟨h5, _⟩ := cut_unique h4 hp (by rw [List.mem_append]; rintro (h | h); exacts [h2 h, no_slash h])
    (Or.inr ⟨post, rfl⟩) h3
  have h6 := congrArg List.getLast? h5
  rw [List.getLast?_append, List.getLast?_append] at h6
  simp only [List.getLast?_singleton, Option.some_or, show "_bp_step".toList.getLast? = some 'p' by decide +kernel,
    Option.some.injEq] at h6
  exact hc h6

/-! ## What is in a report -/

/-- A number is logged by a callback for a key: the last value, the mean of the window, and the total under a key of its
own. -/
inductive Logged (l : Logs) : String → Rat → Prop where
  | scalar {k v} : (k, v) ∈ l.scalar → Logged l k v
  | window {k w} : (k, w) ∈ l.windowed → w.vals ≠ [] → Logged l k (w.vals.sum / w.vals.length)
  | total {k v} : (k, v) ∈ l.cumulative → Logged l (k ++ "/cumulative") v

/-- The keys of a callback. -/
def sources (l : Logs) : List String :=
  l.scalar.keys ++ l.windowed.keys ++ l.cumulative.keys.map (· ++ "/cumulative")

theorem means_ok {ws : Dict String Window} {ms : List (String × Rat)} (h : means ws = .ok ms) :
    ms.map Prod.fst = ws.keys.map rename ∧ (∀ k w, (k, w) ∈ ws → w.vals ≠ [] ∧ (rename k, w.vals.sum / w.vals.length) ∈ ms) ∧
      ∀ e ∈ ms, ∃ k w, (k, w) ∈ ws ∧ w.vals ≠ [] ∧ e = (rename k, w.vals.sum / w.vals.length) := by
  induction ws generalizing ms with
  | nil =>
    rw [means] at h
    cases h
    simp [Dict.keys]
  | cons kw ws ih =>
    obtain ⟨k, w⟩ := kw
    rw [means] at h
    unfold Window.mean at h
    by_cases h0 : w.vals.length = 0
    · simp [h0] at h
    · rw [if_neg h0] at h
      simp only at h
      cases hm : means ws with
      | error e => simp [hm] at h
      | ok rest =>
        simp only [hm, Except.ok.injEq] at h
        subst h
        obtain ⟨h1, h2, h3⟩ := ih hm
        have hne : w.vals ≠ [] := fun hc => h0 (by simp [hc])
        refine ⟨?_, ?_, ?_⟩
        · simp only [Dict.keys, List.map_cons] at h1 ⊢
          rw [h1]
        · intro k' w' hm'
          rcases List.mem_cons.1 hm' with hm' | hm'
          · cases hm'
            exact ⟨hne, by simp⟩
          · exact ⟨(h2 k' w' hm').1, List.mem_cons_of_mem _ (h2 k' w' hm').2⟩
        · intro e he
          rcases List.mem_cons.1 he with rfl | he
          · exact ⟨k, w, by simp, hne, rfl⟩
          · obtain ⟨k', w', h4, h5⟩ := h3 e he
            exact ⟨k', w', List.mem_cons_of_mem _ h4, h5⟩

theorem ofLogs_ok {l : Logs} {es : List (String × Rat)} (h : ofLogs l = .ok es) :
    es.map Prod.fst = (sources l).map rename ∧ (∀ e, e ∈ es ↔ ∃ k v, Logged l k v ∧ e = (rename k, v)) := by
  unfold ofLogs at h
  cases hm : means l.windowed with
  | error e => simp [hm] at h
  | ok ms =>
    simp only [hm, Except.ok.injEq] at h
    subst h
    obtain ⟨h1, h2, h3⟩ := means_ok hm
    constructor
    · simp only [sources, List.map_append, h1, List.map_map, Dict.keys]
      congr 1
      apply List.map_congr_left
      intro kv _
      simp [rename_cumulative]
    · intro e
      simp only [List.mem_append, List.mem_map]
      constructor
      · rintro ((⟨⟨k, v⟩, hk, rfl⟩ | he) | ⟨⟨k, v⟩, hk, rfl⟩)
        · exact ⟨k, v, .scalar hk, rfl⟩
        · obtain ⟨k, w, h4, h5, rfl⟩ := h3 e he
          exact ⟨k, _, .window h4 h5, rfl⟩
        · exact ⟨_, v, .total hk, by rw [rename_cumulative]⟩
      · rintro ⟨k, v, hl, rfl⟩
        cases hl with
        | scalar hk => exact Or.inl (Or.inl ⟨_, hk, rfl⟩)
        | window hk hne => exact Or.inl (Or.inr (h2 _ _ hk).2)
        | total hk => exact Or.inr ⟨_, hk, by rw [rename_cumulative]⟩

theorem ofAll_ok {cbs : List Logs} {es : List (String × Rat)} (h : ofAll cbs = .ok es) :
    es.map Prod.fst = (cbs.flatMap sources).map rename ∧
      (∀ e, e ∈ es ↔ ∃ l ∈ cbs, ∃ k v, Logged l k v ∧ e = (rename k, v)) := by
  induction cbs generalizing es with
  | nil =>
    rw [ofAll] at h
    cases h
    simp
  | cons l ls ih =>
    rw [ofAll] at h
    cases h1 : ofLogs l with
    | error e => simp [h1] at h
    | ok a =>
      cases h2 : ofAll ls with
      | error e => simp [h1, h2] at h
      | ok b =>
        simp only [h1, h2, Except.ok.injEq] at h
        subst h
        obtain ⟨h3, h4⟩ := ofLogs_ok h1
        obtain ⟨h5, h6⟩ := ih h2
        constructor
        · simp [h3, h5]
        · intro e
          simp only [List.mem_append, h4, h6, List.mem_cons, exists_eq_or_imp]

/-- The report can be made exactly if no window is empty. -/
theorem ofAll_succeeds (cbs : List Logs) :
    (∃ es, ofAll cbs = .ok es) ↔ ∀ l ∈ cbs, ∀ k w, (k, w) ∈ l.windowed → w.vals ≠ [] := by
  have hmeans : ∀ ws : Dict String Window, (∃ ms, means ws = .ok ms) ↔ ∀ k w, (k, w) ∈ ws → w.vals ≠ [] := by
    intro ws
    constructor
    · rintro ⟨ms, h⟩ k w hm
      exact ((means_ok h).2.1 k w hm).1
    · intro h
      induction ws with
      | nil => exact ⟨[], rfl⟩
      | cons kw ws ih =>
        obtain ⟨k, w⟩ := kw
        obtain ⟨ms, hms⟩ := ih fun k w hm => h k w (List.mem_cons_of_mem _ hm)
        have h0 : w.vals.length ≠ 0 := by simpa using h k w (by simp)
        refine ⟨(rename k, w.vals.sum / w.vals.length) :: ms, ?_⟩
        rw [means, Window.mean, if_neg h0]
        simp only [hms]
  have hlogs : ∀ l : Logs, (∃ es, ofLogs l = .ok es) ↔ ∀ k w, (k, w) ∈ l.windowed → w.vals ≠ [] := by
    intro l
    rw [← hmeans]
    unfold ofLogs
    cases means l.windowed <;> simp
  induction cbs with
  | nil => simp [ofAll]
  | cons l ls ih =>
    rw [List.forall_mem_cons, ← hlogs]
    refine Iff.trans ?_ (and_congr_right fun _ => ih)
    constructor
    · rintro ⟨es, h⟩
      rw [ofAll] at h
      cases h1 : ofLogs l with
      | error e => simp [h1] at h
      | ok a =>
        cases h2 : ofAll ls with
        | error e => simp [h1, h2] at h
        | ok b => exact ⟨⟨a, rfl⟩, ⟨b, rfl⟩⟩
    · rintro ⟨⟨a, ha⟩, ⟨b, hb⟩⟩
      exact ⟨a ++ b, by simp [ofAll, ha, hb]⟩

/-- **C98** A report fails exactly if a window is empty or no time has passed. -/
theorem C98_succeeds (cbs : List Logs) (c : Clock) :
    ((∃ d, wandb cbs c = .ok d) ↔ c.elapsed ≠ 0 ∧ ∀ l ∈ cbs, ∀ k w, (k, w) ∈ l.windowed → w.vals ≠ []) ∧
    ((∃ d, tensorboard cbs c = .ok d) ↔ c.elapsed ≠ 0 ∧ ∀ l ∈ cbs, ∀ k w, (k, w) ∈ l.windowed → w.vals ≠ []) := by
  rw [← ofAll_succeeds]
  unfold wandb tensorboard
  cases ofAll cbs with
  | error e => simp
  | ok es =>
    by_cases h : c.elapsed = 0
    · simp [h]
    · simp [h]

/-- **C98** Tensorboard gets exactly the numbers that are logged, each under the tag of its key and with the step of the
report, and the two rates. -/
theorem C98_tensorboard {cbs : List Logs} {c : Clock} {ws : List (String × Rat × Rat)} (h : tensorboard cbs c = .ok ws)
    (t : String) (v s : Rat) :
    (t, v, s) ∈ ws ↔ s = c.step ∧ ((∃ l ∈ cbs, ∃ k, Logged l k v ∧ Tagged k t) ∨
      (t = "performance/bp_samples_per_sec" ∧ v * c.elapsed = c.samples - c.samples0) ∨
      (t = "performance/bp_steps_per_sec" ∧ v * c.elapsed = c.step - c.step0)) := by
  unfold tensorboard at h
  cases h1 : ofAll cbs with
  | error e => simp [h1] at h
  | ok es =>
    by_cases h0 : c.elapsed = 0
    · simp [h1, h0] at h
    · simp only [h1, h0, if_false, Except.ok.injEq] at h
      subst h
      obtain ⟨_, h3⟩ := ofAll_ok h1
      simp only [List.mem_map, List.mem_append, h3, List.mem_cons, List.not_mem_nil, or_false, tagged_iff]
      constructor
      · rintro ⟨e, he, h4⟩
        simp only [Prod.mk.injEq] at h4
        obtain ⟨rfl, rfl, rfl⟩ := h4
        refine ⟨rfl, ?_⟩
        rcases he with ⟨l, hl, k, v, h5, rfl⟩ | rfl | rfl
        · exact Or.inl ⟨l, hl, k, h5, rfl⟩
        · exact Or.inr (Or.inl ⟨rfl, div_mul_cancel₀ _ h0⟩)
        · exact Or.inr (Or.inr ⟨rfl, div_mul_cancel₀ _ h0⟩)
      · rintro ⟨rfl, h⟩
        refine ⟨(t, v), ?_, rfl⟩
        rcases h with ⟨l, hl, k, h5, rfl⟩ | ⟨rfl, h⟩ | ⟨rfl, h⟩
        · exact Or.inl ⟨l, hl, k, v, h5, rfl⟩
        · exact Or.inr (Or.inl (by rw [Prod.mk.injEq]; exact ⟨rfl, (eq_div_iff h0).2 h⟩))
        · exact Or.inr (Or.inr (by rw [Prod.mk.injEq]; exact ⟨rfl, (eq_div_iff h0).2 h⟩))

/-- **C98, partial** If no two logged numbers have the same key, Weights & Biases gets each of them. -/
theorem C98_wandb_partial {cbs : List Logs} {c : Clock} {d : Dict String Rat} (h : wandb cbs c = .ok d)
    (hn : (cbs.flatMap sources).Nodup) {l : Logs} (hl : l ∈ cbs) {k t : String} {v : Rat} (hv : Logged l k v)
    (ht : Tagged k t) :
    d.get? t = some v ∧ d.get? "log/bp_step" = some c.step ∧
      d.get? "performance/bp_samples_per_sec" = some ((c.samples - c.samples0) / c.elapsed) ∧
      d.get? "performance/bp_steps_per_sec" = some ((c.step - c.step0) / c.elapsed) := by
  unfold wandb at h
  cases h1 : ofAll cbs with
  | error e => simp [h1] at h
  | ok es =>
    by_cases h0 : c.elapsed = 0
    · simp [h1, h0] at h
    · simp only [h1, h0, if_false, Except.ok.injEq] at h
      subst h
      obtain ⟨h2, h3⟩ := ofAll_ok h1
      rw [tagged_iff] at ht
      subst ht
      have hnd : (es.map Prod.fst).Nodup := by
        rw [h2]
        exact List.Nodup.map (fun _ _ => rename_inj) hn
      refine ⟨?_, ?_, ?_, ?_⟩
      · rw [Dict.get?_set_ne (Ne.symm (rename_ne k _ 'g' "lo".toList "bp_step".toList (by decide +kernel) (by decide) (by decide +kernel))),
          Dict.get?_set_ne (Ne.symm (rename_ne k _ 'e' "performanc".toList "bp_steps_per_sec".toList (by decide +kernel) (by decide) (by decide +kernel))),
          Dict.get?_set_ne (Ne.symm (rename_ne k _ 'e' "performanc".toList "bp_samples_per_sec".toList (by decide +kernel) (by decide) (by decide +kernel))),
          ofPairs_of_nodup hnd]
        exact Dict.get?_of_mem hnd ((h3 _).2 ⟨l, hl, k, v, hv, rfl⟩)
      · rw [Dict.get?_set_self]
      · rw [Dict.get?_set_ne (by decide), Dict.get?_set_ne (by decide), Dict.get?_set_self]
      · rw [Dict.get?_set_ne (by decide), Dict.get?_set_self]

/-- **C98** From a call to the report: what tensorboard gets for a windowed metric is the mean of the last numbers logged,
as many as the window has. -/
theorem C98_window_mean {cbs : List Logs} {c : Clock} {ws : List (String × Rat × Rat)} (h : tensorboard cbs c = .ok ws)
    {d n : Nat} {key t : String} (hn : Logs.windowLength d key = .ok n) (calls : List (String × LogVal))
    (hk : ∃ x ∈ calls, x.1 = key) (hl : Props.logAll calls (Logs.new d) ∈ cbs) (ht : Tagged key t)
    (hne : Props.lastN n (Props.loggedFor key calls) ≠ []) :
    (t, (Props.lastN n (Props.loggedFor key calls)).sum / (Props.lastN n (Props.loggedFor key calls)).length, c.step) ∈ ws := by
  rw [C98_tensorboard h]
  refine ⟨rfl, Or.inl ⟨_, hl, key, ?_, ht⟩⟩
  exact Logged.window (w := ⟨n, Props.lastN n (Props.loggedFor key calls)⟩)
    (Dict.mem_of_get? (Props.C47_windows hn calls hk).1) hne

/-! ## From the calls to the reports -/

/-- A call of one of the logging methods of a callback -/
inductive Spec.LogCall where
  | scalar (key : String) (v : Rat)
  | windowed (key : String) (v : LogVal)
  | histogram (key : String) (v : LogVal)

/-- The last value that was logged as a scalar for a key -/
def Spec.lastScalar (key : String) (calls : List Spec.LogCall) : Option Rat :=
  (calls.filterMap fun | .scalar k v => if k = key then some v else none | _ => none).getLast?

/-- The calls for windows -/
def Spec.windows (calls : List Spec.LogCall) : List (String × LogVal) :=
  calls.filterMap fun | .windowed k v => some (k, v) | _ => none

/-- The callback makes the call; if it raises, it goes on. -/
def make (l : Logs) : Spec.LogCall → Logs
  | .scalar k v => l.logScalar k v
  | .windowed k v => (l.logWindowed k v).1
  | .histogram k v => l.logHistogram k v

/-- All calls of a callback -/
def makeAll (d : Nat) (calls : List Spec.LogCall) : Logs := calls.foldl make (Logs.new d)

theorem pushWindow_scalar (l : Logs) (k : String) (v : LogVal) : (l.pushWindow k v).1.scalar = l.scalar := by
  unfold Logs.pushWindow
  cases l.windowed.get? k with
  | none => rfl
  | some w =>
    simp only
    cases l.cumulative.get? k <;> rfl

theorem logWindowed_scalar (l : Logs) (k : String) (v : LogVal) : (l.logWindowed k v).1.scalar = l.scalar := by
  unfold Logs.logWindowed
  split
  · exact pushWindow_scalar _ _ _
  · cases Logs.windowLength l.defaultLength k with
    | error e => rfl
    | ok n => exact pushWindow_scalar _ _ _

theorem logHistogram_frame (l : Logs) (k : String) (v : LogVal) :
    (l.logHistogram k v).scalar = l.scalar ∧ (l.logHistogram k v).windowed = l.windowed ∧
      (l.logHistogram k v).cumulative = l.cumulative ∧ (l.logHistogram k v).defaultLength = l.defaultLength := by
  unfold Logs.logHistogram
  cases v with
  | many xs => exact ⟨rfl, rfl, rfl, rfl⟩
  | one x =>
    simp only
    rcases l.hist.get? k with _ | h
    · exact ⟨rfl, rfl, rfl, rfl⟩
    · cases h <;> exact ⟨rfl, rfl, rfl, rfl⟩

/-- Scalars and histograms do not matter for windows. -/
theorem logWindowed_congr {l l' : Logs} (h1 : l.windowed = l'.windowed) (h2 : l.cumulative = l'.cumulative)
    (h3 : l.defaultLength = l'.defaultLength) (k : String) (v : LogVal) :
    (l.logWindowed k v).1.windowed = (l'.logWindowed k v).1.windowed ∧
      (l.logWindowed k v).1.cumulative = (l'.logWindowed k v).1.cumulative ∧
      (l.logWindowed k v).1.defaultLength = (l'.logWindowed k v).1.defaultLength := by
  obtain ⟨s, w, c, h, d⟩ := l
  obtain ⟨s', w', c', h', d'⟩ := l'
  simp only at h1 h2 h3
  subst h1 h2 h3
  have push : ∀ w c d, ((⟨s, w, c, h, d⟩ : Logs).pushWindow k v).1.windowed = ((⟨s', w, c, h', d⟩ : Logs).pushWindow k v).1.windowed ∧
      ((⟨s, w, c, h, d⟩ : Logs).pushWindow k v).1.cumulative = ((⟨s', w, c, h', d⟩ : Logs).pushWindow k v).1.cumulative ∧
      ((⟨s, w, c, h, d⟩ : Logs).pushWindow k v).1.defaultLength = ((⟨s', w, c, h', d⟩ : Logs).pushWindow k v).1.defaultLength := by
    intro w c d
    unfold Logs.pushWindow
    simp only
    cases w.get? k with
    | none => exact ⟨rfl, rfl, rfl⟩
    | some x =>
      simp only
      cases c.get? k <;> exact ⟨rfl, rfl, rfl⟩
  unfold Logs.logWindowed
  simp only
  by_cases hc : w.contains k = true
  · rw [if_pos hc, if_pos hc]; exact push _ _ _
  · rw [if_neg hc, if_neg hc]
    cases Logs.windowLength d k with
    | error e => exact ⟨rfl, rfl, rfl⟩
    | ok n => exact push _ _ _

theorem makeAll_windows (d : Nat) (calls : List Spec.LogCall) :
    (makeAll d calls).windowed = (Props.logAll (Spec.windows calls) (Logs.new d)).windowed ∧
      (makeAll d calls).cumulative = (Props.logAll (Spec.windows calls) (Logs.new d)).cumulative ∧
      (makeAll d calls).defaultLength = (Props.logAll (Spec.windows calls) (Logs.new d)).defaultLength := by
  induction calls using snocInduction with
  | nil => exact ⟨rfl, rfl, rfl⟩
  | snoc calls c ih =>
    have h : makeAll d (calls ++ [c]) = make (makeAll d calls) c := by simp [makeAll]
    rw [h]
    cases c with
    | scalar k v =>
      have : Spec.windows (calls ++ [.scalar k v]) = Spec.windows calls := by simp [Spec.windows]
      rw [this]; exact ih
    | histogram k v =>
      have : Spec.windows (calls ++ [.histogram k v]) = Spec.windows calls := by simp [Spec.windows]
      rw [this]
      obtain ⟨-, h2, h3, h4⟩ := logHistogram_frame (makeAll d calls) k v
      exact ⟨h2.trans ih.1, h3.trans ih.2.1, h4.trans ih.2.2⟩
    | windowed k v =>
      have : Spec.windows (calls ++ [.windowed k v]) = Spec.windows calls ++ [(k, v)] := by simp [Spec.windows]
      rw [this]
      have h2 : Props.logAll (Spec.windows calls ++ [(k, v)]) (Logs.new d) =
          ((Props.logAll (Spec.windows calls) (Logs.new d)).logWindowed k v).1 := by simp [Props.logAll]
      rw [h2]
      exact logWindowed_congr ih.1 ih.2.1 ih.2.2 k v

theorem makeAll_scalar (d : Nat) (calls : List Spec.LogCall) :
    (makeAll d calls).scalar.keys.Nodup ∧ ∀ key, (makeAll d calls).scalar.get? key = Spec.lastScalar key calls := by
  induction calls using snocInduction with
  | nil => exact ⟨List.nodup_nil, fun _ => rfl⟩
  | snoc calls c ih =>
    have h : makeAll d (calls ++ [c]) = make (makeAll d calls) c := by simp [makeAll]
    rw [h]
    cases c with
    | scalar k v =>
      refine ⟨Dict.nodup_set ih.1, fun key => ?_⟩
      show ((makeAll d calls).scalar.set k v).get? key = _
      unfold Spec.lastScalar
      rw [List.filterMap_append]
      by_cases hk : k = key
      · subst hk
        simp [Dict.get?_set_self]
      · rw [Dict.get?_set_ne hk, ih.2 key]
        simp [hk, Spec.lastScalar]
    | histogram k v =>
      have h1 := (logHistogram_frame (makeAll d calls) k v).1
      refine ⟨by rw [make, h1]; exact ih.1, fun key => ?_⟩
      rw [make, h1, ih.2 key]
      simp [Spec.lastScalar, List.filterMap_append]
    | windowed k v =>
      have h1 := logWindowed_scalar (makeAll d calls) k v
      refine ⟨by rw [make, h1]; exact ih.1, fun key => ?_⟩
      rw [make, h1, ih.2 key]
      simp [Spec.lastScalar, List.filterMap_append]

/-- **C98** From the calls to the report: for a metric that is logged as a scalar, tensorboard gets the last value,
whatever else was logged before, between and after. If the key is used for nothing else, it gets nothing else under its
tag. -/
theorem C98_last_value {cbs : List Logs} {c : Clock} {ws : List (String × Rat × Rat)} (h : tensorboard cbs c = .ok ws)
    (d : Nat) (calls : List Spec.LogCall) (hl : makeAll d calls ∈ cbs) {key t : String} (ht : Tagged key t) {v : Rat}
    (hv : Spec.lastScalar key calls = some v) :
    (t, v, c.step) ∈ ws ∧ ((∀ l ∈ cbs, l = makeAll d calls ∨ ∀ x, ¬ Logged l key x) →
      (∀ x ∈ Spec.windows calls, x.1 ≠ key ∧ x.1 ++ "/cumulative" ≠ key) → ∀ v' s, (t, v', s) ∈ ws → v' = v) := by
  have hsc := makeAll_scalar d calls
  constructor
  · rw [C98_tensorboard h]
    exact ⟨rfl, .inl ⟨_, hl, key, .scalar (Dict.mem_of_get? ((hsc.2 key).trans hv)), ht⟩⟩
  · intro hother hw v' s hm
    rw [C98_tensorboard h] at hm
    have htag := tagged_iff.1 ht
    rcases hm.2 with ⟨l, hl', k, hlog, hk⟩ | ⟨h1, -⟩ | ⟨h1, -⟩
    · have hkk : k = key := (C98_tags k).2.2 key t hk ht
      rcases hother l hl' with rfl | hno
      · have hwin := makeAll_windows d calls
        have hkeys : ∀ {α : Type} (dd : Dict String α) {k : String} {x : α}, (k, x) ∈ dd → k ∈ dd.keys := by
          intro α dd k x hm
          exact List.mem_map.2 ⟨(k, x), hm, rfl⟩
        have hsub : ∀ (cs : List (String × LogVal)), (∀ k ∈ (Props.logAll cs (Logs.new d)).windowed.keys, ∃ x ∈ cs, x.1 = k) ∧
            ∀ k ∈ (Props.logAll cs (Logs.new d)).cumulative.keys, ∃ x ∈ cs, x.1 = k := by
          intro cs
          induction cs using snocInduction with
          | nil => exact ⟨fun k hk => (by cases hk), fun k hk => (by cases hk)⟩
          | snoc cs c ih =>
            have e : Props.logAll (cs ++ [c]) (Logs.new d) = ((Props.logAll cs (Logs.new d)).logWindowed c.1 c.2).1 := by
              simp [Props.logAll]
            rw [e]
            obtain ⟨-, f⟩ := Props.logWindowed_frame (Props.logAll cs (Logs.new d)) c.1 c.2
            refine ⟨fun k hk => ?_, fun k hk => ?_⟩
            · by_cases hc : c.1 = k
              · exact ⟨c, by simp, hc⟩
              · obtain ⟨x, hx⟩ := Dict.get?_isSome_of_mem hk
                rw [(f k (Ne.symm hc)).1] at hx
                obtain ⟨y, hy, hyk⟩ := ih.1 k (Dict.mem_keys_of_get? hx)
                exact ⟨y, by simp [hy], hyk⟩
            · by_cases hc : c.1 = k
              · exact ⟨c, by simp, hc⟩
              · obtain ⟨x, hx⟩ := Dict.get?_isSome_of_mem hk
                rw [(f k (Ne.symm hc)).2] at hx
                obtain ⟨y, hy, hyk⟩ := ih.2 k (Dict.mem_keys_of_get? hx)
                exact ⟨y, by simp [hy], hyk⟩
        cases hlog with
        | scalar hs =>
          subst hkk
          have := Dict.get?_of_mem hsc.1 hs
          rw [hsc.2, hv] at this
          exact (Option.some.inj this).symm
        | window hs _ =>
          rw [hwin.1] at hs
          obtain ⟨x, hx, hxk⟩ := (hsub _).1 _ (hkeys _ hs)
          exact absurd (hxk.trans hkk) (hw x hx).1
        | total hs =>
          rw [hwin.2.1] at hs
          obtain ⟨x, hx, hxk⟩ := (hsub _).2 _ (hkeys _ hs)
          exact absurd (by rw [hxk]; exact hkk) (hw x hx).2
      · exact absurd (hkk ▸ hlog) (hno _)
    · rw [htag] at h1
      exact absurd h1 (rename_ne key _ 'e' "performanc".toList "bp_samples_per_sec".toList (by decide +kernel) (by decide) (by decide +kernel))
    · rw [htag] at h1
      exact absurd h1 (rename_ne key _ 'e' "performanc".toList "bp_steps_per_sec".toList (by decide +kernel) (by decide) (by decide +kernel))

/-- **C98** … and for a metric with a window, the mean of the last numbers and their total, whatever else was logged before,
between and after. -/
theorem C98_mixed_window {cbs : List Logs} {c : Clock} {ws : List (String × Rat × Rat)} (h : tensorboard cbs c = .ok ws)
    {d n : Nat} {key t : String} (hn : Logs.windowLength d key = .ok n) (calls : List Spec.LogCall)
    (hk : ∃ x ∈ Spec.windows calls, x.1 = key) (hl : makeAll d calls ∈ cbs) (ht : Tagged key t)
    (hne : Props.lastN n (Props.loggedFor key (Spec.windows calls)) ≠ []) :
    let xs := Props.loggedFor key (Spec.windows calls)
    (t, (Props.lastN n xs).sum / (Props.lastN n xs).length, c.step) ∈ ws ∧ (t ++ "/cumulative", xs.sum, c.step) ∈ ws := by
  obtain ⟨h1, h2, -⟩ := makeAll_windows d calls
  obtain ⟨h3, h4⟩ := Props.C47_windows hn (Spec.windows calls) hk
  refine ⟨?_, ?_⟩
  · rw [C98_tensorboard h]
    refine ⟨rfl, .inl ⟨_, hl, key, ?_, ht⟩⟩
    exact Logged.window (w := ⟨n, Props.lastN n (Props.loggedFor key (Spec.windows calls))⟩)
      (by rw [h1]; exact Dict.mem_of_get? h3) hne
  · rw [C98_tensorboard h]
    refine ⟨rfl, .inl ⟨_, hl, key ++ "/cumulative", .total (by rw [h2]; exact Dict.mem_of_get? h4), ?_⟩⟩
    rw [tagged_iff] at ht ⊢
    rw [ht, rename_cumulative]

/-- **C98** The terminal shows, for every callback, exactly the last value of each scalar, under its own name, with the step;
each once. -/
theorem C98_terminal (d : Nat) (cbs : List (List Spec.LogCall)) (step : Rat) :
    (∀ k s v, (k, s, v) ∈ terminalCycle (cbs.map (makeAll d)) step ↔ s = step ∧ ∃ calls ∈ cbs, Spec.lastScalar k calls = some v) ∧
    ∀ calls, ((terminalCycle [makeAll d calls] step).map fun x => x.1).Nodup := by
  constructor
  · intro k s v
    simp only [terminalCycle, terminal, List.mem_flatMap, List.mem_map, Bool.false_eq_true, if_false]
    constructor
    · rintro ⟨l, ⟨calls, hc, rfl⟩, ⟨k', v'⟩, hkv, he⟩
      simp only [Prod.mk.injEq] at he
      obtain ⟨rfl, rfl, rfl⟩ := he
      refine ⟨rfl, calls, hc, ?_⟩
      rw [← (makeAll_scalar d calls).2]
      exact Dict.get?_of_mem (makeAll_scalar d calls).1 hkv
    · rintro ⟨rfl, calls, hc, hv⟩
      refine ⟨_, ⟨calls, hc, rfl⟩, (k, v), Dict.mem_of_get? ?_, rfl⟩
      rw [(makeAll_scalar d calls).2, hv]
  · intro calls
    have := (makeAll_scalar d calls).1
    simpa [terminalCycle, terminal, Dict.keys, Function.comp_def] using this

namespace ExL

def calls : List Spec.LogCall := [.scalar "loss/q" 1, .windowed "training/reward" (.many [1, 2, 3, 7]), .scalar "steps" 7,
  .histogram "loss/q" (.one 3), .scalar "loss/q" 5, .windowed "training/reward" (.one 2)]

example : Spec.lastScalar "loss/q" calls = some 5 ∧
    terminalCycle [makeAll 3 calls] 100 = [("loss/q", 100, 5), ("steps", 100, 7)] := by decide +kernel

example : (tensorboard [makeAll 3 calls] ⟨100, 2000, 50, 1000, 10⟩).toOption = some [("loss_bp_step/q", 5, 100),
    ("steps_bp_step", 7, 100), ("training_bp_step/reward", 4, 100), ("training_bp_step/reward/cumulative", 15, 100),
    ("performance/bp_samples_per_sec", 100, 100), ("performance/bp_steps_per_sec", 5, 100)] := by decide +kernel

end ExL

/-! ## The claim -/

/-- **C98** Every number that is logged gets to Weights & Biases. -/
def C98_claim : Prop :=
  ∀ (cbs : List Logs) (c : Clock) (d : Dict String Rat), wandb cbs c = .ok d →
    ∀ l ∈ cbs, ∀ k v t, Logged l k v → Tagged k t → d.get? t = some v

namespace Ex

def q1 : Logs := ((Logs.new 3).logScalar "loss/q" 5).logScalar "steps" 7
def q2 : Logs := (Logs.new 3).logScalar "loss/q" 6
def q3 : Logs := ((Logs.new 3).logWindowed "training/reward" (.many [1, 2, 3, 7])).1
def clock : Clock := ⟨100, 2000, 50, 1000, 10⟩

example : rename "loss/q/0" = "loss_bp_step/q/0" ∧ rename "steps" = "steps_bp_step" := by decide +kernel

example : (wandb [q1, q3] clock).toOption = some [("loss_bp_step/q", 5), ("steps_bp_step", 7), ("training_bp_step/reward", 4),
    ("training_bp_step/reward/cumulative", 13), ("performance/bp_samples_per_sec", 100),
    ("performance/bp_steps_per_sec", 5), ("log/bp_step", 100)] := by decide +kernel

example := C98_wandb_partial (cbs := [q1, q3]) (c := clock) (d := [("loss_bp_step/q", 5), ("steps_bp_step", 7),
    ("training_bp_step/reward", 4), ("training_bp_step/reward/cumulative", 13), ("performance/bp_samples_per_sec", 100),
    ("performance/bp_steps_per_sec", 5), ("log/bp_step", 100)]) (by decide +kernel) (by decide +kernel) (l := q1) (by simp)
  (k := "loss/q") (t := "loss_bp_step/q") (v := 5) (.scalar (by decide +kernel)) (tagged_iff.2 (by decide +kernel))

end Ex

/-- **C98 is false**: of two callbacks that log the same key only the last gets through. -/
theorem C98_false : ¬ C98_claim := fun h => by
  have := h [Ex.q1, Ex.q2] Ex.clock [("loss_bp_step/q", 6), ("steps_bp_step", 7), ("performance/bp_samples_per_sec", 100),
    ("performance/bp_steps_per_sec", 5), ("log/bp_step", 100)] (by decide +kernel) Ex.q1 (by simp) "loss/q" 5
    "loss_bp_step/q" (.scalar (by decide +kernel)) (tagged_iff.2 (by decide +kernel))
  revert this
  decide +kernel

end Report

end Verif
