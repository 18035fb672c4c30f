import Verif.Model.Loader
import Verif.Lemmas.Dict
import Mathlib.Data.List.Nodup

/-!
# C33, C34: loaders
-/

namespace Verif.Props

open Verif

variable {D : Type u}

/-! ## Specification -/

/-- A good batch of a loader: the data of some sample with the size added, and the size. -/
def GoodBatch (group sizeKey : String) (count length : Nat) (sample : Dict String (BVal D))
    (b : Dict String (Entry D)) : Prop :=
  b.keys = [group, sizeKey] ∧ b.get? sizeKey = some (.num (count * length)) ∧
  ∃ d, b.get? group = some (.data d) ∧ d.get? sizeKey = some (.num (count * length)) ∧
    ∀ k, k ≠ sizeKey → d.get? k = sample.get? k

/-! ## One loader -/

/-- The outcomes of asking for batches, the table being seen as in `views`. -/
def Loader.run (l : Loader) : List (TableView D) → GenState → List (Except Err (Dict String (Entry D)))
  | [], _ => []
  | t :: ts, g => (l.next t g).2 :: Loader.run l ts (l.next t g).1

theorem Loader.batch_good {l : Loader} (hne : l.group ≠ l.sizeKey) {t : TableView D} {b : Dict String (Entry D)}
    (h : l.batch t = .ok b) :
    ∃ s, t.sample l.count l.length = .ok s ∧ GoodBatch l.group l.sizeKey l.count l.length s b := by
  unfold Loader.batch at h
  cases hs : t.sample l.count l.length with
  | error e => rw [hs] at h; simp at h
  | ok s =>
    rw [hs] at h
    injection h with h
    subst h
    have : Dict.ofPairs [(l.group, Entry.data (s.set l.sizeKey (.num (l.count * l.length)))),
        (l.sizeKey, Entry.num (l.count * l.length))]
      = [(l.group, Entry.data (s.set l.sizeKey (.num (l.count * l.length)))),
        (l.sizeKey, Entry.num (l.count * l.length))] := by
      simp [Dict.ofPairs, Dict.update, Dict.set, hne]
    refine ⟨s, rfl, ?_⟩
    rw [this]
    refine ⟨rfl, by simp [Dict.get?, hne], s.set l.sizeKey (.num (l.count * l.length)), by simp [Dict.get?], by simp, ?_⟩
    intro k hk
    rw [Dict.get?_set_ne (Ne.symm hk)]

/-- C33: whatever happens to the table meanwhile, every batch that a loader yields holds a sample with the count
and length asked for, and reports exactly `count * length`, both next to the data and inside its group. -/
theorem C33_batches {l : Loader} (hne : l.group ≠ l.sizeKey) (views : List (TableView D)) (g : GenState)
    {i : Nat} {b : Dict String (Entry D)} (h : (Loader.run l views g)[i]? = some (.ok b)) :
    ∃ t s, views[i]? = some t ∧ t.sample l.count l.length = .ok s ∧
      GoodBatch l.group l.sizeKey l.count l.length s b := by
  induction views generalizing g i with
  | nil => simp [Loader.run] at h
  | cons t ts ih =>
    unfold Loader.run at h
    cases i with
    | zero =>
      simp only [List.getElem?_cons_zero, Option.some.injEq] at h
      have : l.batch t = .ok b := by
        unfold Loader.next at h
        cases g with
        | done => simp at h
        | fresh =>
          simp only at h
          split at h
          · cases hb : l.batch t with
            | error e => rw [hb] at h; simp at h
            | ok b' => rw [hb] at h; simpa using h
          · simp at h
        | looping =>
          simp only at h
          cases hb : l.batch t with
          | error e => rw [hb] at h; simp at h
          | ok b' => rw [hb] at h; simpa using h
      obtain ⟨s, h1, h2⟩ := Loader.batch_good hne this
      exact ⟨t, s, rfl, h1, h2⟩
    | succ i =>
      rw [List.getElem?_cons_succ] at h
      simpa using ih _ h

/-- A generator that is done yields nothing any more. -/
theorem Loader.run_done (l : Loader) (views : List (TableView D)) :
    ∀ r ∈ Loader.run l views .done, r = .error .stopIteration := by
  induction views with
  | nil => simp [Loader.run]
  | cons t ts ih =>
    intro r hr
    rcases List.mem_cons.1 hr with rfl | hr
    · rfl
    · exact ih r hr

/-- C33: if the table has fewer than `count * length` transitions when iteration starts, the loader raises and
never yields. -/
theorem C33_not_ready (l : Loader) (t : TableView D) (ts : List (TableView D))
    (h : t.size < (l.count * l.length : Nat)) :
    ∀ r ∈ Loader.run l (t :: ts) .fresh, ∃ e, r = .error e := by
  intro r hr
  have hr' : l.isReady t = false := by simp [Loader.isReady]; exact_mod_cast h
  have hn : l.next t .fresh = (.done, .error .runtimeError) := by simp [Loader.next, hr']
  unfold Loader.run at hr
  rw [hn] at hr
  rcases List.mem_cons.1 hr with rfl | hr
  · exact ⟨_, rfl⟩
  · exact ⟨_, Loader.run_done l ts r hr⟩

/-- C33: if the table has enough and sampling does not raise, the loader yields every time it is asked. -/
theorem C33_yields (l : Loader) (t : TableView D) (ts : List (TableView D))
    (h : (l.count * l.length : Nat) ≤ t.size) (hs : ∀ v ∈ t :: ts, ∃ s, v.sample l.count l.length = .ok s) :
    ∀ r ∈ Loader.run l (t :: ts) .fresh, ∃ b, r = .ok b := by
  have hb : ∀ v ∈ t :: ts, ∃ b, l.batch v = .ok b := by
    intro v hv
    obtain ⟨s, hs⟩ := hs v hv
    unfold Loader.batch
    rw [hs]
    exact ⟨_, rfl⟩
  have hl : ∀ vs : List (TableView D), (∀ v ∈ vs, ∃ b, l.batch v = .ok b) →
      ∀ r ∈ Loader.run l vs .looping, ∃ b, r = .ok b := by
    intro vs
    induction vs with
    | nil => simp [Loader.run]
    | cons v vs ih =>
      intro hv r hr
      obtain ⟨b, hb⟩ := hv v (by simp)
      unfold Loader.run at hr
      simp only [Loader.next, hb] at hr
      rcases List.mem_cons.1 hr with rfl | hr
      · exact ⟨b, rfl⟩
      · exact ih (fun v h => hv v (by simp [h])) r hr
  have hr' : l.isReady t = true := by simp [Loader.isReady]; exact_mod_cast h
  obtain ⟨b, hb'⟩ := hb t (by simp)
  intro r hr
  unfold Loader.run at hr
  simp only [Loader.next, hr', hb', if_true] at hr
  rcases List.mem_cons.1 hr with rfl | hr
  · exact ⟨b, rfl⟩
  · exact hl ts (fun v h => hb v (by simp [h])) r hr

/-! ## Joint loaders -/

/-- C33: a joint loader is refused exactly when two loaders share a data group. -/
theorem C33_duplicates (loaders : List Loader) (sizeKey : String) :
    (∃ j, JointLoader.new loaders sizeKey = .ok j) ↔ (loaders.map Loader.group).Nodup := by
  have key : (loaders.filter fun l => decide (1 < (loaders.map Loader.group).count l.group)).length = 0 ↔
      (loaders.map Loader.group).Nodup := by
    rw [List.length_eq_zero_iff, List.filter_eq_nil_iff, List.nodup_iff_count_le_one]
    constructor
    · intro h a
      by_cases ha : a ∈ loaders.map Loader.group
      · obtain ⟨l, hl, rfl⟩ := List.mem_map.1 ha
        have := h l hl
        simp only [decide_eq_true_eq] at this
        omega
      · rw [List.count_eq_zero_of_not_mem ha]; omega
    · intro h l _
      have := h l.group
      simp only [decide_eq_true_eq]
      omega
  unfold JointLoader.new
  split
  · rename_i h
    rw [← key]
    exact ⟨fun ⟨_, h'⟩ => by simp at h', fun h' => absurd h' h⟩
  · rename_i h
    rw [← key]
    exact ⟨fun _ => by simpa using h, fun _ => ⟨_, rfl⟩⟩

/-- The total size of the loaders. -/
def totalSize (loaders : List Loader) : Nat := (loaders.map fun l => l.count * l.length).sum

/-- A good joint batch: one entry per data group, holding a sample of that loader's table with its size, and the
sum of the sizes. -/
def GoodJoint (sizeKey : String) (views : List (Loader × TableView D)) (b : Dict String (Entry D)) : Prop :=
  b.keys = sizeKey :: views.map (fun lv => lv.1.group) ∧
  b.get? sizeKey = some (.num (totalSize (views.map Prod.fst))) ∧
  ∀ lv ∈ views, ∃ s d, lv.2.sample lv.1.count lv.1.length = .ok s ∧ b.get? lv.1.group = some (.data d) ∧
    d.get? lv.1.sizeKey = some (.num (lv.1.count * lv.1.length)) ∧ ∀ k, k ≠ lv.1.sizeKey → d.get? k = s.get? k

theorem Loader.fresh_ok {l : Loader} {t : TableView D} {b : Dict String (Entry D)}
    (h : (l.next t .fresh).2 = .ok b) : l.batch t = .ok b := by
  unfold Loader.next at h
  simp only at h
  split at h
  · cases hb : l.batch t with
    | error e => rw [hb] at h; simp at h
    | ok b' => rw [hb] at h; simpa using h
  · simp at h

theorem addLoaders_good {sizeKey : String} (views todo : List (Loader × TableView D))
    (hnd : ((views ++ todo).map fun lv => lv.1.group).Nodup)
    (hg : ∀ lv ∈ todo, lv.1.group ≠ lv.1.sizeKey ∧ lv.1.group ≠ sizeKey) (hg' : ∀ lv ∈ views, lv.1.group ≠ sizeKey)
    {out b : Dict String (Entry D)} (hout : GoodJoint sizeKey views out)
    (h : JointLoader.addLoaders sizeKey todo out = .ok b) : GoodJoint sizeKey (views ++ todo) b := by
  induction todo generalizing views out with
  | nil =>
    unfold JointLoader.addLoaders at h
    injection h with h
    subst h
    simpa using hout
  | cons lv todo ih =>
    unfold JointLoader.addLoaders at h
    cases ha : JointLoader.addLoader sizeKey lv out with
    | error e => rw [ha] at h; simp at h
    | ok out' =>
      rw [ha] at h
      simp only at h
      obtain ⟨hne, hns⟩ := hg lv (by simp)
      have hout' : GoodJoint sizeKey (views ++ [lv]) out' := by
        unfold JointLoader.addLoader at ha
        cases hx : (lv.1.next lv.2 .fresh).2 with
        | error e => rw [hx] at ha; simp at ha
        | ok data =>
          obtain ⟨s, hs, hk, hsz, d, hd1, hd2, hd3⟩ := Loader.batch_good hne (Loader.fresh_ok hx)
          rw [hx] at ha
          simp only [hd1, hsz, Dict.get?_set_ne hns, hout.2.1] at ha
          injection ha with ha
          subst ha
          have hnk : lv.1.group ∉ out.keys := by
            rw [hout.1]
            intro hm
            rcases List.mem_cons.1 hm with hm | hm
            · exact hns hm
            · rw [List.map_append, List.nodup_append] at hnd
              exact hnd.2.2 _ hm _ (by simp) rfl
          refine ⟨?_, ?_, ?_⟩
          · rw [Dict.keys_set_of_mem, Dict.set_of_not_mem hnk]
            · simp [hout.1]
            · rw [Dict.mem_keys_set, hout.1]; simp
          · rw [Dict.get?_set_self]
            simp [totalSize, List.sum_append]
          · intro lv' hlv'
            rw [List.mem_append, List.mem_singleton] at hlv'
            rcases hlv' with hlv' | rfl
            · obtain ⟨s', d', h1, h2, h3⟩ := hout.2.2 lv' hlv'
              refine ⟨s', d', h1, ?_, h3⟩
              rw [Dict.get?_set_ne (Ne.symm (hg' lv' hlv')), Dict.get?_set_ne, h2]
              rintro he
              rw [List.map_append, List.nodup_append] at hnd
              exact hnd.2.2 lv'.1.group (List.mem_map_of_mem hlv') lv.1.group (by simp) he.symm
            · refine ⟨s, d, hs, ?_, hd2, hd3⟩
              rw [Dict.get?_set_ne (Ne.symm hns), Dict.get?_set_self]
      have := ih (views ++ [lv]) (by simpa using hnd) (fun lv h => hg lv (by simp [h]))
        (by intro lv' h'
            rw [List.mem_append, List.mem_singleton] at h'
            rcases h' with h' | rfl
            · exact hg' lv' h'
            · exact hns) hout' h
      simpa using this

/-- The outcomes of asking a joint loader for batches; each element has the loaders with their tables as they are
at that moment. -/
def JointLoader.run (sizeKey : String) : List (List (Loader × TableView D)) → GenState →
    List (Except Err (Dict String (Entry D)))
  | [], _ => []
  | v :: vs, g => (JointLoader.next sizeKey v g).2 :: JointLoader.run sizeKey vs (JointLoader.next sizeKey v g).1

theorem joint_next_ok {sizeKey : String} {v : List (Loader × TableView D)} {g : GenState}
    {b : Dict String (Entry D)} (h : (JointLoader.next sizeKey v g).2 = .ok b) :
    JointLoader.batch sizeKey v = .ok b := by
  unfold JointLoader.next at h
  cases g with
  | done => simp at h
  | fresh =>
    simp only at h
    split at h
    · cases hb : JointLoader.batch sizeKey v with
      | error e => rw [hb] at h; simp at h
      | ok b' => rw [hb] at h; simpa using h
    · simp at h
  | looping =>
    simp only at h
    cases hb : JointLoader.batch sizeKey v with
    | error e => rw [hb] at h; simp at h
    | ok b' => rw [hb] at h; simpa using h

/-- C33: whatever happens to the tables meanwhile, every batch of an accepted joint loader has one entry per data
group, each holding a sample of that loader's table with its own size, and reports the sum of all sizes. -/
theorem C33_joint {loaders : List Loader} {sizeKey : String} {j : JointLoader}
    (hj : JointLoader.new loaders sizeKey = .ok j)
    (hg : ∀ l ∈ loaders, l.group ≠ l.sizeKey ∧ l.group ≠ sizeKey)
    (rounds : List (List (Loader × TableView D))) (hr : ∀ v ∈ rounds, v.map Prod.fst = j.loaders) (g : GenState)
    {i : Nat} {b : Dict String (Entry D)} (h : (JointLoader.run j.sizeKey rounds g)[i]? = some (.ok b)) :
    ∃ v, rounds[i]? = some v ∧ GoodJoint sizeKey v b ∧
      b.get? sizeKey = some (.num (totalSize loaders)) := by
  have hnd := (C33_duplicates loaders sizeKey).1 ⟨j, hj⟩
  have hj' : j = ⟨loaders, sizeKey⟩ := by
    unfold JointLoader.new at hj
    split at hj
    · simp at hj
    · injection hj with hj; exact hj.symm
  subst hj'
  simp only at hr h
  induction rounds generalizing g i with
  | nil => simp [JointLoader.run] at h
  | cons v vs ih =>
    unfold JointLoader.run at h
    cases i with
    | zero =>
      simp only [List.getElem?_cons_zero, Option.some.injEq] at h
      have hb := joint_next_ok h
      have hv : v.map Prod.fst = loaders := hr v (by simp)
      have hgv : ∀ lv ∈ v, lv.1.group ≠ lv.1.sizeKey ∧ lv.1.group ≠ sizeKey := fun lv h =>
        hg lv.1 (by rw [← hv]; exact List.mem_map_of_mem h)
      have hgood := addLoaders_good (sizeKey := sizeKey) [] v (by
          have e : ([] ++ v).map (fun lv : Loader × TableView D => lv.1.group) = loaders.map Loader.group := by
            rw [← hv, List.map_map]; rfl
          rw [e]; exact hnd)
        hgv (by simp) (out := [(sizeKey, .num 0)]) ⟨rfl, by simp [Dict.get?, totalSize], by simp⟩ hb
      refine ⟨v, rfl, hgood, ?_⟩
      rw [hgood.2.1]
      simp [hv]
    | succ i =>
      rw [List.getElem?_cons_succ] at h
      simpa using ih _ (fun v h => hr v (by simp [h])) h

/-- C33: if one of the tables has too few transitions when iteration starts, the joint loader raises and never yields. -/
theorem C33_joint_not_ready (sizeKey : String) (v : List (Loader × TableView D)) (vs : List (List (Loader × TableView D)))
    (h : ∃ lv ∈ v, lv.2.size < (lv.1.count * lv.1.length : Nat)) :
    ∀ r ∈ JointLoader.run sizeKey (v :: vs) .fresh, ∃ e, r = .error e := by
  have hr' : JointLoader.isReady v = false := by
    obtain ⟨lv, hm, hl⟩ := h
    rw [JointLoader.isReady, List.all_eq_false]
    exact ⟨lv, hm, by simp [Loader.isReady]; exact_mod_cast hl⟩
  have hn : JointLoader.next sizeKey v .fresh = (.done, .error .runtimeError) := by simp [JointLoader.next, hr']
  have hdone : ∀ (vs : List (List (Loader × TableView D))), ∀ r ∈ JointLoader.run sizeKey vs .done, ∃ e, r = .error e := by
    intro vs
    induction vs with
    | nil => simp [JointLoader.run]
    | cons v vs ih =>
      intro r hr
      unfold JointLoader.run at hr
      simp only [JointLoader.next] at hr
      rcases List.mem_cons.1 hr with rfl | hr
      · exact ⟨_, rfl⟩
      · exact ih r hr
  intro r hr
  unfold JointLoader.run at hr
  rw [hn] at hr
  rcases List.mem_cons.1 hr with rfl | hr
  · exact ⟨_, rfl⟩
  · exact hdone vs r hr

namespace ExLd

def table (n : Nat) : TableView Nat :=
  ⟨n, fun c l => .ok [("obs", .tensor (c * l)), ("reward", .tensor c)]⟩

def a : Loader := ⟨"online", 2, 3, "batch_size"⟩
def b : Loader := ⟨"offline", 4, 3, "batch_size"⟩

end ExLd

open ExLd in
example : JointLoader.run "batch_size" [[(a, table 10), (b, table 20)], [(a, table 11), (b, table 5)]] .fresh
    = [.ok [("batch_size", .num 18),
        ("online", .data [("obs", .tensor 6), ("reward", .tensor 2), ("batch_size", .num 6)]),
        ("offline", .data [("obs", .tensor 12), ("reward", .tensor 4), ("batch_size", .num 12)])],
      .error .runtimeError] := by decide +kernel

open ExLd in
example := C33_joint (loaders := [a, b]) (sizeKey := "batch_size") (j := ⟨[a, b], "batch_size"⟩) (by decide +kernel)
  (by decide +kernel) [[(a, table 10), (b, table 20)]] (by intro v hv; simp at hv; subst hv; rfl) .fresh (i := 0)
  (b := [("batch_size", .num 18),
        ("online", .data [("obs", .tensor 6), ("reward", .tensor 2), ("batch_size", .num 6)]),
        ("offline", .data [("obs", .tensor 12), ("reward", .tensor 4), ("batch_size", .num 12)])]) (by decide +kernel)

open ExLd in
example := C33_yields a (table 10) [table 3, table 0] (by decide) (by
  intro v hv
  simp at hv
  rcases hv with rfl | rfl | rfl <;> exact ⟨_, rfl⟩)

open ExLd in
example : ¬ ∃ j, JointLoader.new [a, { b with group := "online" }] "batch_size" = .ok j := by
  rw [C33_duplicates]; decide +kernel

/-! ## C34 -/

/-- The outcomes of asking a `JointMemoryLoaderWithDataGroup` for batches. -/
def groupedRun (dataGroup sizeKey : String) : List (List (Loader × TableView D)) → GenState →
    List (Except Err (Dict String (JointLoader.GroupEntry D)))
  | [], _ => []
  | v :: vs, g => (JointLoader.nextGrouped dataGroup sizeKey v g).2 ::
      groupedRun dataGroup sizeKey vs (JointLoader.nextGrouped dataGroup sizeKey v g).1

/-- C34 does not hold for any loaders, tables and keys: from the second time on, asking ends the iteration. -/
theorem C34_false (dataGroup sizeKey : String) (rounds : List (List (Loader × TableView D))) (i : Nat)
    (hi : i + 1 < rounds.length) :
    (groupedRun dataGroup sizeKey rounds .fresh)[i + 1]? = some (.error .stopIteration) := by
  have hnf : ∀ (rounds : List (List (Loader × TableView D))) (g : GenState) (i : Nat), g ≠ .fresh →
      i < rounds.length → (groupedRun dataGroup sizeKey rounds g)[i]? = some (.error .stopIteration) := by
    intro rounds
    induction rounds with
    | nil => intro g i _ hi; simp at hi
    | cons v vs ih =>
      intro g i hg hi
      have h1 : JointLoader.nextGrouped dataGroup sizeKey v g = (.done, .error .stopIteration) := by
        cases g with
        | fresh => exact absurd rfl hg
        | looping => rfl
        | done => rfl
      unfold groupedRun
      rw [h1]
      cases i with
      | zero => rfl
      | succ i => exact ih .done i (by simp) (by simpa using hi)
  cases rounds with
  | nil => simp at hi
  | cons v vs =>
    unfold groupedRun
    rw [List.getElem?_cons_succ]
    refine hnf vs _ i ?_ (by simpa using hi)
    unfold JointLoader.nextGrouped
    simp only
    split
    · simp
    · split <;> simp

/-- C34, what does hold: the first batch has the joint batch, without its size, in the data group, and the total
size. (Missing: any further batch.) -/
theorem C34_first_partial {loaders : List Loader} {dataGroup sizeKey : String} {j : JointLoader}
    (hj : JointLoader.new loaders sizeKey = .ok j)
    (hg : ∀ l ∈ loaders, l.group ≠ l.sizeKey ∧ l.group ≠ sizeKey) (hd : dataGroup ≠ sizeKey)
    (v : List (Loader × TableView D)) (hv : v.map Prod.fst = loaders)
    (hready : ∀ lv ∈ v, (lv.1.count * lv.1.length : Nat) ≤ lv.2.size)
    (hs : ∀ lv ∈ v, ∃ s, lv.2.sample lv.1.count lv.1.length = .ok s) :
    ∃ b, GoodJoint sizeKey v b ∧ (JointLoader.nextGrouped dataGroup sizeKey v .fresh).2 =
      .ok [(dataGroup, .group (b.erase sizeKey)), (sizeKey, .size (.num (totalSize loaders)))] := by
  have hok : ∀ (todo : List (Loader × TableView D)) (out : Dict String (Entry D)) (n : Nat),
      (∀ lv ∈ todo, lv ∈ v) → out.get? sizeKey = some (.num n) →
      ∃ b, JointLoader.addLoaders sizeKey todo out = .ok b := by
    intro todo
    induction todo with
    | nil => exact fun out n _ _ => ⟨out, rfl⟩
    | cons lv todo ih =>
      intro out n hin hout
      have hlv := hin lv (by simp)
      obtain ⟨hne, hns⟩ := hg lv.1 (by rw [← hv]; exact List.mem_map_of_mem hlv)
      obtain ⟨s, hs⟩ := hs lv hlv
      have hr' : lv.1.isReady lv.2 = true := by
        have := hready lv hlv
        simp [Loader.isReady]; exact_mod_cast this
      obtain ⟨data, hdata⟩ : ∃ b, lv.1.batch lv.2 = .ok b := by
        unfold Loader.batch; rw [hs]; exact ⟨_, rfl⟩
      have hn : (lv.1.next lv.2 .fresh).2 = .ok data := by simp [Loader.next, hr', hdata]
      obtain ⟨s', hs', hk, hsz, d, hd1, hd2, hd3⟩ := Loader.batch_good hne hdata
      unfold JointLoader.addLoaders JointLoader.addLoader
      rw [hn]
      simp only [hd1, hsz, Dict.get?_set_ne hns, hout]
      exact ih _ _ (fun lv h => hin lv (by simp [h])) (Dict.get?_set_self)
  obtain ⟨b, hb⟩ := hok v [(sizeKey, .num 0)] 0 (fun _ h => h) (by simp [Dict.get?])
  have hnext : (JointLoader.next sizeKey v .fresh).2 = .ok b := by
    unfold JointLoader.next
    have : JointLoader.isReady v = true := by
      unfold JointLoader.isReady
      rw [List.all_eq_true]
      intro lv hlv
      have := hready lv hlv
      simp [Loader.isReady]; exact_mod_cast this
    simp only [this, if_true]
    unfold JointLoader.batch
    rw [hb]
  have hj' : j = ⟨loaders, sizeKey⟩ := by
    unfold JointLoader.new at hj
    split at hj
    · simp at hj
    · injection hj with hj; exact hj.symm
  obtain ⟨v', h1, h2, h3⟩ := C33_joint hj hg [v] (by intro w hw; simp at hw; subst hw; rw [hv, hj']) .fresh (i := 0)
    (b := b) (by unfold JointLoader.run; rw [hj']; simp [hnext])
  simp only [List.getElem?_cons_zero, Option.some.injEq] at h1
  subst h1
  refine ⟨b, h2, ?_⟩
  unfold JointLoader.nextGrouped
  simp only [hnext, h3]
  simp [Dict.ofPairs, Dict.update, Dict.set, hd]

open ExLd in
example := C34_false "joint" "batch_size" [[(a, table 10), (b, table 20)], [(a, table 10), (b, table 20)]] 0 (by decide)

open ExLd in
example : groupedRun "joint" "batch_size" [[(a, table 10), (b, table 20)], [(a, table 10), (b, table 20)]] .fresh
    = [.ok [("joint", .group [("online", .data [("obs", .tensor 6), ("reward", .tensor 2), ("batch_size", .num 6)]),
          ("offline", .data [("obs", .tensor 12), ("reward", .tensor 4), ("batch_size", .num 12)])]),
        ("batch_size", .size (.num 18))],
      .error .stopIteration] := by decide +kernel

end Verif.Props
