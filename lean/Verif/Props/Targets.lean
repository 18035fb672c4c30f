import Verif.Model.Targets
import Verif.Props.EndToEnd
import Verif.Props.Returns

/-!
# C132: from what an agent experienced to the targets of its transitions
-/

namespace Verif.Props

open Verif.Spec

namespace Targets

open Verif.Targets

variable {V : Type u} {M : Type u'} {K : Type v} {A : Type w}

/-! ## Specification -/

/-- The features that an agent saw at a step, as a network gets them. -/
def Saw (keys : List String) (s : Step V M) (x : Dict String (Cell V)) : Prop :=
  x.keys = keys ∧ ∀ f ∈ keys, ∃ v, s.obs.arrays.get? f = some v ∧ x.get? f = some (.row v)

/-- Row `i` of a batch: the observation `s` was made with, and the action it was answered with. -/
def RowIs (keys : List String) (b : Batch V) (i : Nat) (s : Step V M) : Prop :=
  (∃ o, b.get? "observation" = some (.obs o) ∧ o.keys = keys ∧
    ∀ f ∈ keys, ∃ col v, o.get? f = some col ∧ s.obs.arrays.get? f = some v ∧ col[i]? = some (.row v)) ∧
  ∃ col v, b.get? "actions" = some (.col col) ∧ s.action = some v ∧ col[i]? = some (.row v)

/-- Each step of a run was made by the same agent as the one before, right after it and in the same episode. -/
def IsRun (h : List (Step V M)) (n : Nat) (run : List (Step V M)) : Prop :=
  run.length = n + 1 ∧ ∀ (i : Nat) s s', run[i]? = some s → run[i + 1]? = some s' → Consecutive h s s'

/-- The numbers `r` are the rewards that the agent got after the steps of a run. -/
def Earned (num : V → K) (run : List (Step V M)) (r : Nat → K) : Prop :=
  ∀ (i : Nat) s', run[i + 1]? = some s' → ∃ v, s'.obs.rewards.get? "reward" = some v ∧ r i = num v

/-- The return of a run from its step `j` on: the scaled rewards, each discounted by the number of steps until it was got, and
the value at the end of the run, discounted likewise. -/
def nStep [Field K] (gamma scale : K) (r : Nat → K) (n j : Nat) (value : K) : K :=
  ((List.range (n - j)).map fun i => gamma ^ i * (scale * r (j + i))).sum + gamma ^ (n - j) * value

/-! ## What a batch shows -/

/-- What is known of a batch: it shows runs. -/
structure Shows (keys : List String) (h : List (Step V M)) (b : Batch V) (count n : Nat) (runs : List (List (Step V M)))
    (x : Dict String (List (Cell V))) (rew mk : List (Cell V)) : Prop where
  next : b.get? "next_observation" = some (.obs x)
  rewards : b.get? "rewards" = some (.col rew)
  masks : b.get? "masks" = some (.col mk)
  xkeys : x.keys = keys
  lrew : rew.length = count * n
  lmk : mk.length = count * n
  lruns : runs.length = count
  run : ∀ (k : Nat) run, runs[k]? = some run → IsRun h n run
  row : ∀ (k : Nat) run, runs[k]? = some run → ∀ (i : Nat) s, i < n → run[i]? = some s → RowIs keys b (k * n + i) s
  reward : ∀ (k : Nat) run, runs[k]? = some run → ∀ (i : Nat) s', i < n → run[i + 1]? = some s' →
    ∃ v, s'.obs.rewards.get? "reward" = some v ∧ rew[k * n + i]? = some (.row v)
  mask : ∀ (k : Nat) run, runs[k]? = some run → ∀ (i : Nat) s', i < n → run[i + 1]? = some s' →
    mk[k * n + i]? = some (.bit !s'.ends)
  xlen : ∀ f ∈ keys, ∃ col, x.get? f = some col ∧ col.length = count
  last : ∀ (k : Nat) run, runs[k]? = some run → ∀ s', run[n]? = some s' → ∀ f ∈ keys, ∃ col v, x.get? f = some col ∧
    s'.obs.arrays.get? f = some v ∧ col[k]? = some (.row v)

section

variable {keys : List String} {nstep ut : Bool} {cfg : ProxyCfg V} {maxlen : Int} {t0 : Table V}

/-- A batch of a table to which some of the delivered episodes were added. -/
theorem run_shows (hnames : ((Builder.columns nstep ut keys).map Column.name).Nodup)
    (hut : cfg.useTerminal = ut) (hlk : cfg.lengthKey = "actions")
    (hc : Created (Builder.columns nstep ut keys) maxlen "actions" t0) {ops : List (Op V)} {t : Table V} (hr : Run t0 ops t)
    {h : List (Step V M)} (hE : Environment keys h)
    (hadd : ∀ e ∈ added (acts "actions" ops), ∃ a ss, (a, ss) ∈ delivered cfg [] h ∧ e = asEntry cfg (a, ss)) {count n : Nat}
    (hn : 0 < n) (hmin : n = 1 ∨ ∃ m, cfg.minLength = some m ∧ (n : Int) ≤ m) (hone : nstep = true ∨ n = 1)
    {c r : Nat → Nat} {junk : String → Nat → Cell V} {one : V → Bool} {t' : Table V} {b : Batch V}
    (hs : Table.sampleAdapted (Builder.adaptors one ut keys) count n c r junk t = (t', .ok b)) :
    ∃ runs x rew mk, Shows keys h b count n runs x rew mk ∧
      ∀ (k : Nat) run, runs[k]? = some run → ∃ a ss, (a, ss) ∈ delivered cfg [] h ∧ run <:+: ss := by
  obtain ⟨hact, hrew, hterm⟩ := builder_reserved hnames
  have hterm' : cfg.useTerminal = true → "terminal" ∉ keys := by rw [hut]; exact hterm
  obtain ⟨q, hq⟩ := run_hist hc hr
  have hcols := builder_columns_eq hnames hq
  have hep : ∀ e ∈ added (acts "actions" ops), EpisodeOk (Builder.columns nstep ut keys) e := by
    intro e he
    obtain ⟨a, ss, h1, rfl⟩ := hadd e he
    exact ended_episodeOk hnames hut hlk (delivered_ended hE h1).1
  have hlong : ∀ x ∈ t.lengths, n ≤ x.2 := by
    intro x hx
    rw [hq.inv.lengths] at hx
    obtain ⟨e, he, rfl⟩ := List.mem_map.1 hx
    obtain ⟨a, ss, h1, rfl⟩ := hadd e (hq.sub.subset he)
    obtain ⟨h2, h3⟩ := delivered_ended hE h1
    have h4 := (column_actions h2 hact cfg.useTerminal cfg.float).1
    have h5 := h2.long
    simp only [asEntry, hlk]
    rcases hmin with rfl | ⟨m, hm, hle⟩
    · omega
    · unfold longEnough at h3
      rw [hm, hlk] at h3
      simp only [decide_eq_true_eq] at h3
      omega
  unfold Table.sampleAdapted at hs
  obtain ⟨t1, out, hs1, hs2⟩ := Res.andThen_eq_ok.1 hs
  injection hs2 with _ hb
  obtain ⟨_, _, _, hkeys, _⟩ := C09_windows_are_genuine hc hr (builder_targeted hnames) hep hn hlong hs1
  obtain ⟨ws, w1, w2, w3⟩ := batch_at hc hr (builder_targeted hnames) hep hn hlong hs1
  have hkeys' : out.keys = (Builder.columns nstep ut keys).map Column.name := by
    rw [hkeys, hcols]; simp [Dict.keys, Function.comp_def]
  obtain ⟨o, x, b1, b2, b3, b4, b5, b6⟩ := adapted_columns hnames hkeys' hb
  have hmem : ∀ c ∈ Builder.columns nstep ut keys, (c.name, c.kind) ∈ t.columns := by
    intro c hc1
    rw [hcols]
    exact List.mem_map.2 ⟨c, hc1, rfl⟩
  obtain ⟨act, a1, a2, a3⟩ := w3 "actions" .plain (hmem ⟨"actions", .plain⟩ (by simp [Builder.columns]))
  obtain ⟨rew, r1, r2, r3⟩ := w3 "rewards" .plain (hmem ⟨"rewards", .plain⟩ (by simp [Builder.columns]))
  obtain ⟨mk, m1, m2, m3⟩ := w3 "masks" (.virt .masks "actions") (hmem ⟨"masks", .virt .masks "actions"⟩ (by simp [Builder.columns]))
  simp only [rowsPerWindow] at a2 r2 m2 a3 r3 m3
  have hnx : ∀ f ∈ keys, ∃ col', out.get? ("next_" ++ f) = some col' ∧ col'.length = count ∧
      ∀ (k : Nat) w, ws[k]? = some w → col'[k]? = ((w.1.rows f)[w.2 + n]?).map .row := by
    intro f hf
    obtain ⟨col', x1, x2, x3⟩ := w3 ("next_" ++ f) _ (hmem ⟨"next_" ++ f, .virt (if nstep then .nextLast else .next) f⟩ (by
      simp only [Builder.columns, List.mem_append, List.mem_flatMap]
      exact Or.inl (Or.inr ⟨f, hf, by simp [Builder.obsColumns]⟩)))
    refine ⟨col', x1, ?_, fun k w hw => ?_⟩
    · cases nstep with
      | true => simpa [rowsPerWindow] using x2
      | false =>
        obtain rfl : n = 1 := by simpa using hone
        simpa [rowsPerWindow] using x2
    · cases nstep with
      | true =>
        have := (x3 k w hw).2 0 (by simp [rowsPerWindow])
        simpa [rowsPerWindow, windowOf, rowsFrom_get] using this
      | false =>
        obtain rfl : n = 1 := by simpa using hone
        have := (x3 k w hw).2 0 (by simp [rowsPerWindow])
        simpa [rowsPerWindow, windowOf, rowsFrom_get] using this
  have hw0 : ∀ w ∈ ws, ∃ a ss, w.1 = asEntry cfg (a, ss) ∧ Ended keys h a ss ∧
      w.2 + n + 1 ≤ ss.length ∧ (a, ss) ∈ delivered cfg [] h := by
    intro w hw
    obtain ⟨e1, -, e3⟩ := w2 w hw
    obtain ⟨a, ss, h1, h2⟩ := hadd w.1 e1
    have hend := (delivered_ended hE h1).1
    refine ⟨a, ss, h2, hend, ?_, h1⟩
    have hla := (column_actions hend hact cfg.useTerminal cfg.float).1
    rw [h2] at e3
    have := hend.long
    simp only [asEntry, hlk] at e3
    omega
  choose! ag sts hw1 using hw0
  refine ⟨ws.map fun w => ((sts w).drop w.2).take (n + 1), x, rew, mk, ?_, fun k run hk => ?_⟩
  rotate_left
  · rw [List.getElem?_map, Option.map_eq_some_iff] at hk
    obtain ⟨w, hw, rfl⟩ := hk
    exact ⟨_, _, (hw1 w (List.mem_of_getElem? hw)).2.2.2, (List.take_prefix _ _).isInfix.trans (List.drop_suffix _ _).isInfix⟩
  have hrun : ∀ (k : Nat) run, (ws.map fun w => ((sts w).drop w.2).take (n + 1))[k]? = some run →
      ∃ e st ss, ws[k]? = some (e, st) ∧ run = (ss.drop st).take (n + 1) ∧ (∃ a, e = asEntry cfg (a, ss) ∧
        Ended keys h a ss) ∧ st + n + 1 ≤ ss.length := by
    intro k run hk
    rw [List.getElem?_map, Option.map_eq_some_iff] at hk
    obtain ⟨w, hw, rfl⟩ := hk
    obtain ⟨g1, g2, g3, -⟩ := hw1 w (List.mem_of_getElem? hw)
    exact ⟨w.1, w.2, sts w, hw, rfl, ⟨_, g1, g2⟩, g3⟩
  refine ⟨b2, by rw [b6 _ (by simp), r1]; rfl, by rw [b6 _ (by simp), m1]; rfl, b4, r2, m2, by simp [w1], ?_, ?_, ?_, ?_,
    fun f hf => ?_, ?_⟩
  · intro k run hk
    obtain ⟨e, st, ss, hw, rfl, ⟨a, rfl, hend⟩, hlen⟩ := hrun k run hk
    refine ⟨by simp; omega, fun i s s' hi hi' => ?_⟩
    have hin : i < n := by
      have := (List.getElem?_eq_some_iff.1 hi').1
      simp at this; omega
    simp only [List.getElem?_take, List.getElem?_drop] at hi hi'
    rw [if_pos (by omega)] at hi hi'
    rw [show st + (i + 1) = st + i + 1 by omega] at hi'
    exact hend.next _ _ _ hi hi'
  · intro k run hk i s hin hi
    obtain ⟨e, st, ss, hw, rfl, ⟨a, rfl, hend⟩, hlen⟩ := hrun k run hk
    simp only [List.getElem?_take, List.getElem?_drop] at hi
    rw [if_pos (by omega)] at hi
    refine ⟨⟨o, b1, b3, fun f hf => ?_⟩, ?_⟩
    · obtain ⟨col, o1, o2, o3⟩ := w3 f .plain (hmem ⟨f, .plain⟩ (by
        simp only [Builder.columns, List.mem_append, List.mem_flatMap]
        exact Or.inl (Or.inr ⟨f, hf, by simp [Builder.obsColumns]⟩)))
      simp only [rowsPerWindow] at o2 o3
      obtain ⟨v, hv⟩ := Dict.get?_isSome_of_mem (((hend.step s (List.mem_of_getElem? hi)).features f).2 hf)
      have c3 := (column_feature hend hact hf hrew hterm' cfg.float).2
      refine ⟨col, v, by rw [(b5 f hf).1, o1], hv, ?_⟩
      rw [(o3 k _ hw).2 i hin]
      simp only [windowOf, asEntry, List.getElem?_map, rowsFrom_get _ _ hin, c3, hi, Option.bind_some, hv, Option.map_some]
    · have hns : s.ends = false := by
        cases h : s.ends with
        | false => rfl
        | true => have := (hend.last _ _ hi).1 h; omega
      obtain ⟨rr, v, g1, g2, -⟩ := (hend.step s (List.mem_of_getElem? hi)).action hns
      have hav : s.action = some v := by simp [Step.action, g1, g2, Dict.get?]
      obtain ⟨-, c1⟩ := column_actions hend hact cfg.useTerminal cfg.float
      refine ⟨act, v, by rw [b6 _ (by simp), a1]; rfl, hav, ?_⟩
      rw [(a3 k _ hw).2 i hin]
      simp only [windowOf, asEntry, List.getElem?_map, rowsFrom_get _ _ hin]
      rw [c1 _ (by omega), hi]
      simp only [Option.bind_some, hav, Option.map_some]
  · intro k run hk i s' hin hi'
    obtain ⟨e, st, ss, hw, rfl, ⟨a, rfl, hend⟩, hlen⟩ := hrun k run hk
    simp only [List.getElem?_take, List.getElem?_drop] at hi'
    rw [if_pos (by omega), show st + (i + 1) = st + i + 1 by omega] at hi'
    have hni : s'.obs.state ≠ .initial := fun h => by
      have := (hend.first _ _ hi').1 h
      omega
    obtain ⟨v, hv⟩ := Dict.get?_isSome_of_mem ((hend.step s' (List.mem_of_getElem? hi')).reward hni)
    obtain ⟨-, c2⟩ := column_rewards hend hact hrew cfg.useTerminal cfg.float
    refine ⟨v, hv, ?_⟩
    rw [(r3 k _ hw).2 i hin]
    simp only [windowOf, asEntry, List.getElem?_map, rowsFrom_get _ _ hin]
    rw [c2, hi']
    simp only [Option.bind_some, hv, Option.map_some]
  · intro k run hk i s' hin hi'
    obtain ⟨e, st, ss, hw, rfl, ⟨a, rfl, hend⟩, hlen⟩ := hrun k run hk
    simp only [List.getElem?_take, List.getElem?_drop] at hi'
    rw [if_pos (by omega), show st + (i + 1) = st + i + 1 by omega] at hi'
    have hx := hend.last _ _ hi'
    obtain ⟨l1, -⟩ := column_actions hend hact cfg.useTerminal cfg.float
    rw [(m3 k _ hw).2 i hin]
    simp only [windowOf, asEntry, List.getElem?_map, List.getElem?_range hin, Option.map_some, isLast]
    cases h : s'.ends with
    | true => have := hx.1 h; simp; omega
    | false =>
      have : ¬ (st + i + 1 + 1 = ss.length) := fun h' => by rw [hx.2 h'] at h; simp at h
      simp; omega
  · obtain ⟨col', n1, n2, -⟩ := hnx f hf
    exact ⟨col', by rw [(b5 f hf).2, n1], n2⟩
  · intro k run hk s' hi' f hf
    obtain ⟨e, st, ss, hw, rfl, ⟨a, rfl, hend⟩, hlen⟩ := hrun k run hk
    simp only [List.getElem?_take, List.getElem?_drop] at hi'
    rw [if_pos (by omega)] at hi'
    obtain ⟨col', n1, n2, n3⟩ := hnx f hf
    obtain ⟨v, hv⟩ := Dict.get?_isSome_of_mem (((hend.step s' (List.mem_of_getElem? hi')).features f).2 hf)
    have c3 := (column_feature hend hact hf hrew hterm' cfg.float).2
    refine ⟨col', v, by rw [(b5 f hf).2, n1], hv, ?_⟩
    rw [n3 k _ hw]
    simp only [asEntry, c3, hi', Option.bind_some, hv, Option.map_some]

end

/-! ## Rows for the networks -/

theorem batch_shows (hnames : ((Builder.columns nstep ut keys).map Column.name).Nodup)
    (hut : cfg.useTerminal = ut) (hlk : cfg.lengthKey = "actions")
    (hc : Created (Builder.columns nstep ut keys) maxlen "actions" t0) {es : List (Event V M)} {p : Proxy V (Table V)}
    (hl : Life cfg (Proxy.new t0) es p) (hE : Environment keys (es.flatMap Event.steps))
    (hids : ((delivered cfg [] (es.flatMap Event.steps)).map fun x => Table.wrapId x.1).Nodup) {count n : Nat}
    (hn : 0 < n) (hmin : n = 1 ∨ ∃ m, cfg.minLength = some m ∧ (n : Int) ≤ m) (hone : nstep = true ∨ n = 1)
    {c r : Nat → Nat} {junk : String → Nat → Cell V} {one : V → Bool} {t' : Table V} {b : Batch V}
    (hs : Table.sampleAdapted (Builder.adaptors one ut keys) count n c r junk p.table = (t', .ok b)) :
    ∃ runs x rew mk, Shows keys (es.flatMap Event.steps) b count n runs x rew mk := by
  obtain ⟨-, ops, hr, hacts⟩ := life_run hnames hut hlk hc hl hE hids
  obtain ⟨runs, x, rew, mk, h, -⟩ := run_shows hnames hut hlk hc hr hE (fun e he => by
    rw [hacts, added_eventActs] at he
    obtain ⟨⟨a, ss⟩, h1, h2⟩ := List.mem_map.1 he
    exact ⟨a, ss, h1, h2.symm⟩) hn hmin hone hs
  exact ⟨runs, x, rew, mk, h⟩

theorem rowAt_ok (x : Dict String (List (Cell V))) (k : Nat) (h : ∀ p ∈ x, k < p.2.length) :
    ∃ row, rowAt x k = some row ∧ row.keys = x.keys ∧ ∀ f col, x.get? f = some col → row.get? f = col[k]? := by
  induction x with
  | nil => exact ⟨[], rfl, rfl, fun f col hf => by simp [Dict.get?] at hf⟩
  | cons p x ih =>
    obtain ⟨row, h1, h2, h3⟩ := ih fun q hq => h q (List.mem_cons_of_mem _ hq)
    obtain ⟨c, hc⟩ : ∃ c, p.2[k]? = some c := ⟨_, List.getElem?_eq_getElem (h p (by simp))⟩
    refine ⟨(p.1, c) :: row, ?_, by simp [h2], fun f col hf => ?_⟩
    · unfold rowAt at h1 ⊢
      rw [List.mapM_cons, h1, hc]
      rfl
    · simp only [Dict.get?] at hf ⊢
      split at hf
      · rename_i he
        rw [if_pos he]
        obtain rfl := Option.some.inj hf
        exact hc.symm
      · rename_i he
        rw [if_neg he]
        exact h3 f col hf

theorem mapM_total {α : Type u} {β : Type v} {f : α → Option β} (l : List α) (h : ∀ a ∈ l, ∃ b, f a = some b) :
    ∃ bs, l.mapM f = some bs ∧ bs.length = l.length ∧ ∀ (i : Nat) a, l[i]? = some a → f a = bs[i]? := by
  induction l with
  | nil => exact ⟨[], rfl, rfl, by simp⟩
  | cons a l ih =>
    obtain ⟨bs, h1, h2, h3⟩ := ih fun q hq => h q (List.mem_cons_of_mem _ hq)
    obtain ⟨b, hb⟩ := h a (by simp)
    refine ⟨b :: bs, by rw [List.mapM_cons, h1, hb]; rfl, by simp [h2], fun i a' ha => ?_⟩
    cases i with
    | zero => simp at ha; subst ha; simpa using hb
    | succ i => simp at ha ⊢; exact h3 i a' ha

theorem rows_ok {keys : List String} {h : List (Step V M)} {b : Batch V} {count n : Nat} {runs : List (List (Step V M))}
    {x : Dict String (List (Cell V))} {rew mk : List (Cell V)} (hsh : Shows keys h b count n runs x rew mk)
    (hk : keys ≠ []) (hnd : keys.Nodup) :
    ∃ rs, rows x = .ok rs ∧ rs.length = count ∧ ∀ (k : Nat) run s', runs[k]? = some run → run[n]? = some s' →
      ∃ row, rs[k]? = some row ∧ Saw keys s' row := by
  have hall : ∀ p ∈ x, p.2.length = count := by
    intro p hp
    have hp' : (p.1, p.2) ∈ x := hp
    obtain ⟨col, h1, h2⟩ := hsh.xlen p.1 (by rw [← hsh.xkeys]; exact Dict.mem_keys_of_mem hp')
    rw [Dict.get?_of_mem (by rw [hsh.xkeys]; exact hnd) hp'] at h1
    obtain rfl := Option.some.inj h1
    exact h2
  obtain ⟨rs, h1, h2, h3⟩ := mapM_total (f := rowAt x) (List.range count) fun k hkc => by
    obtain ⟨row, hr, -⟩ := rowAt_ok x k fun p hp => by rw [hall p hp]; exact List.mem_range.1 hkc
    exact ⟨row, hr⟩
  refine ⟨rs, ?_, by simpa using h2, fun k run s' hrun hs' => ?_⟩
  · cases x with
    | nil => exact absurd hsh.xkeys.symm hk
    | cons p x =>
      have hp := hall p (by simp)
      unfold rows
      simp only
      rw [if_pos, hp, h1]
      rw [List.all_eq_true]
      intro q hq
      simp [hall q hq, hp]
  · have hkc : k < count := by
      rw [← hsh.lruns]
      exact (List.getElem?_eq_some_iff.1 hrun).1
    obtain ⟨row, r1, r2, r3⟩ := rowAt_ok x k fun p hp => by rw [hall p hp]; exact hkc
    refine ⟨row, by rw [← h3 k k (by simp [hkc]), r1], by rw [r2, hsh.xkeys], fun f hf => ?_⟩
    obtain ⟨col, v, l1, l2, l3⟩ := hsh.last k run hrun s' hs' f hf
    exact ⟨v, l2, by rw [r3 f col l1, l3]⟩

/-! ## Cutting columns into rollouts -/

theorem chunks {α : Type u} (n count : Nat) (col : List α) (h : col.length = count * n) :
    (List.range count).flatMap (fun k => (col.drop (k * n)).take n) = col := by
  induction count generalizing col with
  | zero =>
    have : col = [] := List.length_eq_zero_iff.1 (by simpa using h)
    subst this
    rfl
  | succ count ih =>
    have h1 := ih (col.drop n) (by rw [List.length_drop, h, Nat.succ_mul]; omega)
    rw [List.range_succ_eq_map, List.flatMap_cons, List.flatMap_map]
    simp only [List.drop_drop] at h1
    have : (fun k => List.take n (List.drop (Nat.succ k * n) col)) = fun k => List.take n (List.drop (n + k * n) col) := by
      funext k
      rw [Nat.succ_mul, Nat.add_comm]
    rw [this, h1]
    simp

theorem mapIdx_range [Zero K] {α : Type u} (f : Nat → α → K) (rs : List α) :
    rs.mapIdx f = (List.range rs.length).map fun k => (rs[k]?.map (f k)).getD 0 := by
  apply List.ext_getElem?
  intro i
  rw [List.getElem?_mapIdx, List.getElem?_map]
  by_cases hi : i < rs.length
  · rw [List.getElem?_range hi, Option.map_some, List.getElem?_eq_getElem hi]
    rfl
  · rw [List.getElem?_eq_none (by omega), List.getElem?_eq_none (by simp; omega)]
    rfl

variable [Field K]

theorem allRets_get (g : K) (n : Nat) (l : List (List K × K)) (hl : ∀ p ∈ l, p.1.length = n) (k : Nat) (p : List K × K)
    (hk : l[k]? = some p) (j : Nat) (hj : j < n) :
    (Returns.allRets g l)[k * n + j]? = some (Returns.ret g p.2 (p.1.drop j)) := by
  induction l generalizing k with
  | nil => simp at hk
  | cons q l ih =>
    have hlen : (Returns.rets g q.2 q.1).length = n := by rw [Returns.rets_eq]; simp [hl q (by simp)]
    rw [Returns.allRets]
    cases k with
    | zero =>
      simp only [List.getElem?_cons_zero, Option.some.injEq] at hk
      subst hk
      rw [Nat.zero_mul, Nat.zero_add, List.getElem?_append_left (by omega), Returns.rets_eq, List.getElem?_map,
        List.getElem?_range (by rw [hl _ (by simp)]; exact hj)]
      rfl
    | succ k =>
      rw [List.getElem?_append_right (by rw [hlen, Nat.succ_mul]; omega), hlen,
        show (k + 1) * n + j - n = k * n + j by rw [Nat.succ_mul]; omega]
      exact ih (fun p hp => hl p (List.mem_cons_of_mem _ hp)) k (by simpa using hk)

theorem ret_nStep (gamma scale value : K) (l : List K) (r : Nat → K) (n j : Nat) (hl : l.length = n) (_hj : j ≤ n)
    (hr : ∀ i, i < n → l[i]? = some (r i)) :
    Returns.ret gamma value ((l.map (scale * ·)).drop j) = nStep gamma scale r n j value := by
  rw [Returns.ret_sum]
  unfold nStep
  have hlen : ((l.map (scale * ·)).drop j).length = n - j := by simp [hl]
  rw [hlen]
  congr 2
  apply List.map_congr_left
  intro i hi
  have hi' := List.mem_range.1 hi
  rw [List.getD_eq_getElem?_getD, List.getElem?_drop, List.getElem?_map, hr (j + i) (by omega)]
  rfl

variable [LinearOrder K]

section

variable {keys : List String} {h : List (Step V M)} {b : Batch V} {count n : Nat} {runs : List (List (Step V M))}
    {x : Dict String (List (Cell V))} {rew mk : List (Cell V)}

omit [LinearOrder K] in
theorem shown_reward (hsh : Shows keys h b count n runs x rew mk) (num : V → K) {k : Nat} {run : List (Step V M)}
    (hrun : runs[k]? = some run) :
    ∃ r : Nat → K, Earned num run r ∧ (((rew.map (number num)).drop (k * n)).take n).length = n ∧
      ∀ i, i < n → (((rew.map (number num)).drop (k * n)).take n)[i]? = some (r i) := by
  have hl := (hsh.run k run hrun).1
  have hkc : k < count := by
    rw [← hsh.lruns]
    exact (List.getElem?_eq_some_iff.1 hrun).1
  have hkn : k * n + n ≤ count * n := by
    rw [← Nat.succ_mul]
    exact Nat.mul_le_mul_right _ hkc
  refine ⟨fun i => (((rew.map (number num)).drop (k * n)).take n).getD i 0, fun i s' hi => ?_, ?_, fun i hi => ?_⟩
  · have hin : i < n := by
      have := (List.getElem?_eq_some_iff.1 hi).1
      omega
    obtain ⟨v, v1, v2⟩ := hsh.reward k run hrun i s' hin hi
    refine ⟨v, v1, ?_⟩
    simp only
    rw [List.getD_eq_getElem?_getD, List.getElem?_take, if_pos hin, List.getElem?_drop, List.getElem?_map, v2]
    rfl
  · simp [hsh.lrew]
    omega
  · simp only
    rw [List.getD_eq_getElem?_getD]
    obtain ⟨s', hs'⟩ : ∃ s', run[i + 1]? = some s' := ⟨_, List.getElem?_eq_getElem (by omega)⟩
    obtain ⟨v, v1, v2⟩ := hsh.reward k run hrun i s' hi hs'
    rw [List.getElem?_take, if_pos hi, List.getElem?_drop, List.getElem?_map, v2]
    rfl

omit [LinearOrder K] in
theorem shown_mask (hsh : Shows keys h b count n runs x rew mk) (hn : 0 < n) (num : V → K) {k : Nat}
    {run : List (Step V M)} (hrun : runs[k]? = some run) {last : Step V M} (hlast : run[n]? = some last) :
    (mk.map (number num))[k * n + (n - 1)]? = some (if last.ends then 0 else 1) := by
  have := hsh.mask k run hrun (n - 1) last (by omega) (by rw [Nat.sub_add_cancel hn]; exact hlast)
  rw [List.getElem?_map, this]
  cases last.ends <;> rfl

omit [LinearOrder K] in
theorem mask_piece (hsh : Shows keys h b count n runs x rew mk) (hn : 0 < n) (num : V → K) {k : Nat} (hk : k < count) :
    ((mk.map (number num)).drop (k * n)).take (n - 1) ++ [((mk.map (number num))[k * n + (n - 1)]?).getD 0] =
      ((mk.map (number num)).drop (k * n)).take n := by
  have hkn : k * n + n ≤ count * n := by
    rw [← Nat.succ_mul]
    exact Nat.mul_le_mul_right _ hk
  obtain ⟨m, rfl⟩ : ∃ m, n = m + 1 := ⟨n - 1, by omega⟩
  have hlt : k * (m + 1) + m < (mk.map (number num)).length := by
    rw [List.length_map, hsh.lmk]
    omega
  rw [Nat.add_sub_cancel, List.take_succ, List.getElem?_drop, List.getElem?_eq_getElem hlt]
  rfl

/-- The targets of soft actor-critic for a batch that shows runs. -/
theorem sac_shown (hsh : Shows keys h b count n runs x rew mk) (hk : keys ≠ []) (hnd : keys.Nodup) (hn : 0 < n)
    (num : V → K) (nets : SacNets V K A) (gamma alpha scale : K) (masking : Bool) :
    ∃ T, sacBegin num nets gamma alpha scale n masking b = .ok T ∧ T.length = count * n ∧
      ∀ (k : Nat) run, runs[k]? = some run → ∃ r last x, Earned num run r ∧ run[n]? = some last ∧ Saw keys last x ∧
        ∀ j, j < n → T[k * n + j]? = some (nStep gamma scale r n j
          (if masking = true ∧ last.ends = true then 0
            else min (nets.q1t (nets.policy k x).1 x) (nets.q2t (nets.policy k x).1 x) - alpha * (nets.policy k x).2)) := by
  obtain ⟨rs, h1, h2, h3⟩ := rows_ok hsh hk hnd
  let Q : (Nat → Dict String (Cell V) → K) → Nat → K := fun f k => (rs[k]?.map (f k)).getD 0
  let roll : Nat → Returns.Roll K := fun k =>
    ⟨((rew.map (number num)).drop (k * n)).take n, ((mk.map (number num)).drop (k * n)).take (n - 1),
      ((mk.map (number num))[k * n + (n - 1)]?).getD 0,
      Q (fun k row => nets.q1t (nets.policy k row).1 row) k, Q (fun k row => nets.q2t (nets.policy k row).1 row) k,
      Q (fun k row => (nets.policy k row).2) k⟩
  let rolls := (List.range count).map roll
  have hruns : ∀ k, k < count → ∃ run last, runs[k]? = some run ∧ run[n]? = some last := by
    intro k hkc
    obtain ⟨run, hrun⟩ : ∃ run, runs[k]? = some run := ⟨_, List.getElem?_eq_getElem (by rw [hsh.lruns]; exact hkc)⟩
    have := (hsh.run k run hrun).1
    exact ⟨run, _, hrun, List.getElem?_eq_getElem (by omega)⟩
  have hrl : ∀ r ∈ rolls, ∃ k, k < count ∧ r = roll k := by
    intro r hr
    obtain ⟨k, hkc, rfl⟩ := List.mem_map.1 hr
    exact ⟨k, List.mem_range.1 hkc, rfl⟩
  have hq : ∀ f : Nat → Dict String (Cell V) → K, rs.mapIdx f = (List.range count).map (Q f) := by
    intro f
    rw [mapIdx_range, h2]
  have hrew : rew.map (number num) = rolls.flatMap Returns.Roll.rewards := by
    simp only [rolls, List.flatMap_map, roll]
    exact (chunks n count _ (by simp [hsh.lrew])).symm
  have hmk : mk.map (number num) = rolls.flatMap Returns.Roll.allMasks := by
    simp only [rolls, List.flatMap_map, roll, Returns.Roll.allMasks]
    rw [List.flatMap_def]
    have : (List.range count).map (fun k => ((mk.map (number num)).drop (k * n)).take (n - 1) ++
        [((mk.map (number num))[k * n + (n - 1)]?).getD 0])
        = (List.range count).map fun k => ((mk.map (number num)).drop (k * n)).take n :=
      List.map_congr_left fun k hkc => mask_piece hsh hn num (List.mem_range.1 hkc)
    rw [this, ← List.flatMap_def]
    exact (chunks n count _ (by simp [hsh.lmk])).symm
  have hlr : ∀ r ∈ rolls, r.rewards.length = n := by
    intro r hr
    obtain ⟨k, hkc, rfl⟩ := hrl r hr
    obtain ⟨run, last, e1, -⟩ := hruns k hkc
    obtain ⟨_, -, e2, -⟩ := shown_reward hsh num e1
    exact e2
  have hlm : ∀ r ∈ rolls, r.allMasks.length = n := by
    intro r hr
    obtain ⟨k, hkc, rfl⟩ := hrl r hr
    have hkn : k * n + n ≤ count * n := by
      rw [← Nat.succ_mul]
      exact Nat.mul_le_mul_right _ hkc
    simp only [roll, Returns.Roll.allMasks]
    rw [mask_piece hsh hn num hkc]
    simp [hsh.lmk]
    omega
  have h01 : ∀ r ∈ rolls, r.lastMask = 0 ∨ r.lastMask = 1 := by
    intro r hr
    obtain ⟨k, hkc, rfl⟩ := hrl r hr
    obtain ⟨run, last, e1, e2⟩ := hruns k hkc
    simp only [roll, shown_mask hsh hn num e1 e2]
    cases last.ends <;> simp
  have hmain := Returns.C63_sac gamma alpha scale n masking rolls hn hlr hlm h01
  refine ⟨Returns.allRets gamma (rolls.map fun r => (r.rewards.map (scale * ·), r.bootstrap alpha masking)), ?_, ?_,
    fun k run hrun => ?_⟩
  · unfold sacBegin
    rw [hsh.next, hsh.rewards, hsh.masks]
    simp only [h1]
    rw [hq, hq, hq, hrew, hmk, ← hmain]
    simp only [rolls, List.map_map]
    rfl
  · rw [Returns.allRets_length, List.map_map]
    have : rolls.map ((fun p : List K × K => p.1.length) ∘ fun r : Returns.Roll K => (r.rewards.map (scale * ·), r.bootstrap alpha masking))
        = rolls.map fun _ => n := List.map_congr_left fun r hr => by simp [hlr r hr]
    rw [this, List.map_const', List.sum_replicate]
    simp [rolls]
  · have hkc : k < count := by
      rw [← hsh.lruns]
      exact (List.getElem?_eq_some_iff.1 hrun).1
    obtain ⟨run', last, e1, e2⟩ := hruns k hkc
    obtain rfl : run = run' := Option.some.inj (hrun.symm.trans e1)
    obtain ⟨r, r1, r2, r3⟩ := shown_reward hsh num hrun
    obtain ⟨row, o1, o2⟩ := h3 k run last hrun e2
    refine ⟨r, last, row, r1, e2, o2, fun j hj => ?_⟩
    rw [allRets_get gamma n _ (by
      intro p hp
      obtain ⟨q, hq1, rfl⟩ := List.mem_map.1 hp
      simpa using hlr q hq1) k (((roll k).rewards.map (scale * ·)), (roll k).bootstrap alpha masking)
      (by simp [rolls, hkc]) j hj]
    rw [ret_nStep gamma scale _ _ r n j r2 (by omega) r3]
    congr 2
    simp only [Returns.Roll.bootstrap, roll, shown_mask hsh hn num hrun e2, Q, o1, Option.map_some, Option.getD_some]
    cases last.ends <;> cases masking <;> simp

/-- The targets of deep Q-learning for a batch that shows runs. -/
theorem dqn_shown (hsh : Shows keys h b count n runs x rew mk) (hk : keys ≠ []) (hnd : keys.Nodup) (hn : 0 < n)
    (num : V → K) (qt : Dict String (Cell V) → List K) (hqt : ∀ row, qt row ≠ []) (gamma scale : K) :
    ∃ T, dqnBegin num qt gamma scale n b = .ok T ∧ T.length = count * n ∧
      ∀ (k : Nat) run, runs[k]? = some run → ∃ r last x best, Earned num run r ∧ run[n]? = some last ∧ Saw keys last x ∧
        best ∈ qt x ∧ (∀ q ∈ qt x, q ≤ best) ∧
        ∀ j, j < n → T[k * n + j]? = some (nStep gamma scale r n j (if last.ends = true then 0 else best)) := by
  obtain ⟨rs, h1, h2, h3⟩ := rows_ok hsh hk hnd
  let roll : Nat → Returns.QRoll K := fun k =>
    ⟨((rew.map (number num)).drop (k * n)).take n, ((mk.map (number num)).drop (k * n)).take (n - 1),
      ((mk.map (number num))[k * n + (n - 1)]?).getD 0,
      ((rs[k]?.map qt).getD []).headD 0, ((rs[k]?.map qt).getD []).tail⟩
  let rolls := (List.range count).map roll
  have hruns : ∀ k, k < count → ∃ run last, runs[k]? = some run ∧ run[n]? = some last := by
    intro k hkc
    obtain ⟨run, hrun⟩ : ∃ run, runs[k]? = some run := ⟨_, List.getElem?_eq_getElem (by rw [hsh.lruns]; exact hkc)⟩
    have := (hsh.run k run hrun).1
    exact ⟨run, _, hrun, List.getElem?_eq_getElem (by omega)⟩
  have hrl : ∀ r ∈ rolls, ∃ k, k < count ∧ r = roll k := by
    intro r hr
    obtain ⟨k, hkc, rfl⟩ := List.mem_map.1 hr
    exact ⟨k, List.mem_range.1 hkc, rfl⟩
  have hhead : ∀ row, (qt row).headD 0 :: (qt row).tail = qt row := by
    intro row
    cases hrow : qt row with
    | nil => exact absurd hrow (hqt row)
    | cons a l => rfl
  have hq : rs.map qt = rolls.map fun r => r.first :: r.others := by
    apply List.ext_getElem?
    intro i
    simp only [rolls, List.map_map, List.getElem?_map]
    by_cases hi : i < count
    · rw [List.getElem?_range hi, List.getElem?_eq_getElem (by rw [h2]; exact hi)]
      simp only [Option.map_some, Function.comp, roll, Option.some.injEq]
      rw [List.getElem?_eq_getElem (by rw [h2]; exact hi)]
      simp only [Option.map_some, Option.getD_some, hhead]
    · rw [List.getElem?_eq_none (by omega), List.getElem?_eq_none (by simp; omega)]
      rfl
  have hrew : rew.map (number num) = rolls.flatMap Returns.QRoll.rewards := by
    simp only [rolls, List.flatMap_map, roll]
    exact (chunks n count _ (by simp [hsh.lrew])).symm
  have hmk : mk.map (number num) = rolls.flatMap fun r => r.masks ++ [r.lastMask] := by
    simp only [rolls, List.flatMap_map, roll]
    rw [List.flatMap_def]
    have : (List.range count).map (fun k => ((mk.map (number num)).drop (k * n)).take (n - 1) ++
        [((mk.map (number num))[k * n + (n - 1)]?).getD 0])
        = (List.range count).map fun k => ((mk.map (number num)).drop (k * n)).take n :=
      List.map_congr_left fun k hkc => mask_piece hsh hn num (List.mem_range.1 hkc)
    rw [this, ← List.flatMap_def]
    exact (chunks n count _ (by simp [hsh.lmk])).symm
  have hlr : ∀ r ∈ rolls, r.rewards.length = n := by
    intro r hr
    obtain ⟨k, hkc, rfl⟩ := hrl r hr
    obtain ⟨run, last, e1, -⟩ := hruns k hkc
    obtain ⟨_, -, e2, -⟩ := shown_reward hsh num e1
    exact e2
  have hlm : ∀ r ∈ rolls, (r.masks ++ [r.lastMask]).length = n := by
    intro r hr
    obtain ⟨k, hkc, rfl⟩ := hrl r hr
    have hkn : k * n + n ≤ count * n := by
      rw [← Nat.succ_mul]
      exact Nat.mul_le_mul_right _ hkc
    simp only [roll]
    rw [mask_piece hsh hn num hkc]
    simp [hsh.lmk]
    omega
  have h01 : ∀ r ∈ rolls, r.lastMask = 0 ∨ r.lastMask = 1 := by
    intro r hr
    obtain ⟨k, hkc, rfl⟩ := hrl r hr
    obtain ⟨run, last, e1, e2⟩ := hruns k hkc
    simp only [roll, shown_mask hsh hn num e1 e2]
    cases last.ends <;> simp
  obtain ⟨best, hbest, hmain⟩ := Returns.C63_dqn gamma scale n rolls hn hlr hlm h01
  refine ⟨Returns.allRets gamma (rolls.map fun r => (r.rewards.map (scale * ·), if r.lastMask = 0 then 0 else best r)),
    ?_, ?_, fun k run hrun => ?_⟩
  · unfold dqnBegin
    rw [hsh.next, hsh.rewards, hsh.masks]
    simp only [h1]
    rw [hq, hrew, hmk, hmain]
  · rw [Returns.allRets_length, List.map_map]
    have : rolls.map ((fun p : List K × K => p.1.length) ∘ fun r : Returns.QRoll K =>
          (r.rewards.map (scale * ·), if r.lastMask = 0 then 0 else best r))
        = rolls.map fun _ => n := List.map_congr_left fun r hr => by simp [hlr r hr]
    rw [this, List.map_const', List.sum_replicate]
    simp [rolls]
  · have hkc : k < count := by
      rw [← hsh.lruns]
      exact (List.getElem?_eq_some_iff.1 hrun).1
    obtain ⟨run', last, e1, e2⟩ := hruns k hkc
    obtain rfl : run = run' := Option.some.inj (hrun.symm.trans e1)
    obtain ⟨r, r1, r2, r3⟩ := shown_reward hsh num hrun
    obtain ⟨row, o1, o2⟩ := h3 k run last hrun e2
    have hb := hbest (roll k) (List.mem_map.2 ⟨k, List.mem_range.2 hkc, rfl⟩)
    have hrow : (roll k).first :: (roll k).others = qt row := by
      simp only [roll, o1, Option.map_some, Option.getD_some, hhead]
    unfold Returns.IsBest at hb
    rw [hrow] at hb
    refine ⟨r, last, row, best (roll k), r1, e2, o2, hb.1, hb.2, fun j hj => ?_⟩
    rw [allRets_get gamma n _ (by
      intro p hp
      obtain ⟨q, hq1, rfl⟩ := List.mem_map.1 hp
      simpa using hlr q hq1) k (((roll k).rewards.map (scale * ·)), if (roll k).lastMask = 0 then 0 else best (roll k))
      (by simp [rolls, hkc]) j hj]
    rw [ret_nStep gamma scale _ _ r n j r2 (by omega) r3]
    congr 2
    simp only [roll, shown_mask hsh hn num hrun e2, Option.getD_some]
    cases last.ends <;> simp

end

/-! ## C132 -/

section

variable {keys : List String} {nstep ut : Bool} {cfg : ProxyCfg V} {maxlen : Int} {t0 : Table V}

theorem keys_nodup (hnames : ((Builder.columns nstep ut keys).map Column.name).Nodup) : keys.Nodup := by
  rw [builder_names, List.nodup_append] at hnames
  exact (sublist_flatMap_pair keys ("next_" ++ ·)).nodup (List.nodup_append.1 hnames.1).2.1

/-- **C132**, soft actor-critic: whatever agents did and whatever is drawn, a batch of windows of `n` transitions gets targets,
one for each row. There are runs of agents, one for each window, such that the row `j` of a window is step `j` of its run, and
its target is the return from there, up to the end of the window, with the soft value of what the agent saw at the end (nothing
if the episode ended there and this is asked for). -/
theorem C132_sac (hnames : ((Builder.columns nstep ut keys).map Column.name).Nodup) (hk : keys ≠ [])
    (hut : cfg.useTerminal = ut) (hlk : cfg.lengthKey = "actions")
    (hc : Created (Builder.columns nstep ut keys) maxlen "actions" t0) {es : List (Event V M)} {p : Proxy V (Table V)}
    (hl : Life cfg (Proxy.new t0) es p) (hE : Environment keys (es.flatMap Event.steps))
    (hids : ((delivered cfg [] (es.flatMap Event.steps)).map fun x => Table.wrapId x.1).Nodup) {count n : Nat}
    (hn : 0 < n) (hmin : n = 1 ∨ ∃ m, cfg.minLength = some m ∧ (n : Int) ≤ m) (hone : nstep = true ∨ n = 1)
    {c r : Nat → Nat} {junk : String → Nat → Cell V} {one : V → Bool} {t' : Table V} {b : Batch V}
    (hs : Table.sampleAdapted (Builder.adaptors one ut keys) count n c r junk p.table = (t', .ok b))
    (num : V → K) (nets : SacNets V K A) (gamma alpha scale : K) (masking : Bool) :
    ∃ (T : List K) (runs : List (List (Step V M))), sacBegin num nets gamma alpha scale n masking b = .ok T ∧ T.length = count * n ∧ runs.length = count ∧
      ∀ (k : Nat) run, runs[k]? = some run → IsRun (es.flatMap Event.steps) n run ∧
        ∃ r last x, Earned num run r ∧ run[n]? = some last ∧ Saw keys last x ∧
          ∀ (j : Nat) s, j < n → run[j]? = some s → RowIs keys b (k * n + j) s ∧
            T[k * n + j]? = some (nStep gamma scale r n j
              (if masking = true ∧ last.ends = true then 0
                else min (nets.q1t (nets.policy k x).1 x) (nets.q2t (nets.policy k x).1 x) - alpha * (nets.policy k x).2)) := by
  obtain ⟨runs, x, rew, mk, hsh⟩ := batch_shows hnames hut hlk hc hl hE hids hn hmin hone hs
  obtain ⟨T, h1, h2, h3⟩ := sac_shown hsh hk (keys_nodup hnames) hn num nets gamma alpha scale masking
  refine ⟨T, runs, h1, h2, hsh.lruns, fun k run hrun => ⟨hsh.run k run hrun, ?_⟩⟩
  obtain ⟨r, last, x, e1, e2, e3, e4⟩ := h3 k run hrun
  exact ⟨r, last, x, e1, e2, e3, fun j s hj hs => ⟨hsh.row k run hrun j s hj hs, e4 j hj⟩⟩

/-- **C132**, deep Q-learning: the same, with the value of the best action at the end, which is dropped if the episode ended
there. -/
theorem C132_dqn (hnames : ((Builder.columns nstep ut keys).map Column.name).Nodup) (hk : keys ≠ [])
    (hut : cfg.useTerminal = ut) (hlk : cfg.lengthKey = "actions")
    (hc : Created (Builder.columns nstep ut keys) maxlen "actions" t0) {es : List (Event V M)} {p : Proxy V (Table V)}
    (hl : Life cfg (Proxy.new t0) es p) (hE : Environment keys (es.flatMap Event.steps))
    (hids : ((delivered cfg [] (es.flatMap Event.steps)).map fun x => Table.wrapId x.1).Nodup) {count n : Nat}
    (hn : 0 < n) (hmin : n = 1 ∨ ∃ m, cfg.minLength = some m ∧ (n : Int) ≤ m) (hone : nstep = true ∨ n = 1)
    {c r : Nat → Nat} {junk : String → Nat → Cell V} {one : V → Bool} {t' : Table V} {b : Batch V}
    (hs : Table.sampleAdapted (Builder.adaptors one ut keys) count n c r junk p.table = (t', .ok b))
    (num : V → K) (qt : Dict String (Cell V) → List K) (hqt : ∀ row, qt row ≠ []) (gamma scale : K) :
    ∃ (T : List K) (runs : List (List (Step V M))), dqnBegin num qt gamma scale n b = .ok T ∧ T.length = count * n ∧ runs.length = count ∧
      ∀ (k : Nat) run, runs[k]? = some run → IsRun (es.flatMap Event.steps) n run ∧
        ∃ r last x best, Earned num run r ∧ run[n]? = some last ∧ Saw keys last x ∧
          best ∈ qt x ∧ (∀ q ∈ qt x, q ≤ best) ∧
          ∀ (j : Nat) s, j < n → run[j]? = some s → RowIs keys b (k * n + j) s ∧
            T[k * n + j]? = some (nStep gamma scale r n j (if last.ends = true then 0 else best)) := by
  obtain ⟨runs, x, rew, mk, hsh⟩ := batch_shows hnames hut hlk hc hl hE hids hn hmin hone hs
  obtain ⟨T, h1, h2, h3⟩ := dqn_shown hsh hk (keys_nodup hnames) hn num qt hqt gamma scale
  refine ⟨T, runs, h1, h2, hsh.lruns, fun k run hrun => ⟨hsh.run k run hrun, ?_⟩⟩
  obtain ⟨r, last, x, best, e1, e2, e3, e4, e5, e6⟩ := h3 k run hrun
  exact ⟨r, last, x, best, e1, e2, e3, e4, e5, fun j s hj hs => ⟨hsh.row k run hrun j s hj hs, e6 j hj⟩⟩

end

/-! ## A concrete case

Agent 1 makes two transitions, then its episode ends; the episode of agent 2 is too short for windows of two. -/

namespace Ex

def cfg : ProxyCfg Nat := { ExE.cfg with minLength := some 2 }
def t0 : Table Nat := (Table.new (Builder.columns true true ["pos"]) 5 (.uniform {}) (.fifo {}) "actions").1

def step (c : Call Nat Unit) (p : Proxy Nat (Table Nat)) : Proxy Nat (Table Nat) :=
  (Proxy.add cfg (fun a ep t => Table.addSequence [] a ep t) c.observations c.responses p).1

def final : Proxy Nat (Table Nat) := step ExE.c3 (step ExE.c2 (step ExE.c1 (Proxy.new t0)))

theorem life : Life cfg (Proxy.new t0) ExE.events final :=
  Life.add (es := [_, _]) (Life.add (es := [_]) (Life.add (es := []) Life.nil
    (Call.wf_of (by decide) (by decide) (by decide)) (Prod.ext rfl (by decide +kernel)))
    (Call.wf_of (by decide) (by decide) (by decide)) (Prod.ext rfl (by decide +kernel)))
    (Call.wf_of (by decide) (by decide) (by decide)) (Prod.ext rfl (by decide +kernel))

theorem created : Created (Builder.columns true true ["pos"]) 5 "actions" t0 :=
  ⟨by decide, _, _, .uniform, .fifo true true, Prod.ext rfl (by decide +kernel)⟩

theorem names : ((Builder.columns true true ["pos"]).map Column.name).Nodup := by decide +kernel

def pos (x : Dict String (Cell Nat)) : ℚ := match x.get? "pos" with
  | some (.row v) => v
  | _ => 0

/-- The policy acts like its position and the row say. -/
def nets : SacNets Nat ℚ ℚ := ⟨fun k x => (pos x + k, 1 / 2), fun a x => a + pos x, fun a x => a * pos x⟩

def batch : Except Err (Batch Nat) :=
  (Table.sampleAdapted (Builder.adaptors (· == 1) true ["pos"]) 2 2 id (fun i => i / 2) (fun _ _ => .bit false)
      final.table).2

/-- Both windows are the whole episode: rewards 7 and 8, and the position 12 at its end. -/
example : (batch.toOption.map fun b => (b.get? "rewards", b.get? "next_observation", b.get? "masks"))
    = some (some (.col [.row 7, .row 8, .row 7, .row 8]), some (.obs [("pos", [.row 12, .row 12])]),
      some (.col [.bit true, .bit false, .bit true, .bit false])) := by decide +kernel

example : (batch.toOption.map fun b => sacBegin (fun v : Nat => (v : ℚ)) nets (1 / 2) 2 10 2 true b)
    = some (.ok [70 + 40, 80, 70 + 40, 80]) := by decide +kernel

/-- Without masking, 24 - 1 and 25 - 1 are the values at the end. -/
example : (batch.toOption.map fun b => sacBegin (fun v : Nat => (v : ℚ)) nets (1 / 2) 2 10 2 false b)
    = some (.ok [70 + 40 + 23 / 4, 80 + 23 / 2, 70 + 40 + 6, 80 + 12]) := by decide +kernel

example : (batch.toOption.map fun b => dqnBegin (fun v : Nat => (v : ℚ)) (fun x => [pos x, 3]) (1 / 2) 10 2 b)
    = some (.ok [110, 80, 110, 80]) := by decide +kernel

/-- A table of one-step transitions gives as many next observations as transitions: no targets for rollouts of two. -/
example : ((Table.sampleAdapted (Builder.adaptors (· == 1) true ["pos"]) 2 2 id (fun i => i / 2) (fun _ _ => .bit false)
      (step ExE.c3 (step ExE.c2 (step ExE.c1 (Proxy.new ExE.t0)))).table).2.toOption.map fun b =>
        sacBegin (fun v : Nat => (v : ℚ)) nets (1 / 2) 2 10 2 false b) = some (.error .runtimeError) := by decide +kernel

example {b : Batch Nat} {t' : Table Nat} {count : Nat} {c r : Nat → Nat} {junk : String → Nat → Cell Nat}
    (hs : Table.sampleAdapted (Builder.adaptors (· == 1) true ["pos"]) count 2 c r junk final.table = (t', .ok b)) :=
  C132_sac names (by decide) rfl rfl created life ExE.environment (by decide +kernel) (by decide)
    (Or.inr ⟨2, rfl, by decide⟩) (Or.inl rfl) hs (fun v : Nat => (v : ℚ)) nets (1 / 2) 2 10 true

example {b : Batch Nat} {t' : Table Nat} {count : Nat} {c r : Nat → Nat} {junk : String → Nat → Cell Nat}
    (hs : Table.sampleAdapted (Builder.adaptors (· == 1) true ["pos"]) count 2 c r junk final.table = (t', .ok b)) :=
  C132_dqn names (by decide) rfl rfl created life ExE.environment (by decide +kernel) (by decide)
    (Or.inr ⟨2, rfl, by decide⟩) (Or.inl rfl) hs (fun v : Nat => (v : ℚ)) (fun x => [pos x, 3]) (by simp) (1 / 2) 10

end Ex

end Targets

end Verif.Props
