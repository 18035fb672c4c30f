import Verif.Model.Onnx
import Verif.Lemmas.Proxy
import Verif.Lemmas.List

/-!
# Queued exports (C54)

For all threads, calls, schedules and outcomes of exports, as long as only the main thread (thread 0) calls `export` and
`process_pending_exports`, as the documentation of these methods asks for.
-/

namespace Verif

namespace Onnx

variable {ι : Type u}

/-! ## What an exporter promises -/

/-- Requests in the order in which they were put into the queue. -/
def puts (log : List (Ev ι)) : List Nat := log.filterMap fun
  | .put id => some id
  | _ => none

/-- Requests in the order in which they were processed. -/
def processed (log : List (Ev ι)) : List Nat := log.filterMap fun
  | .exported id _ _ _ => some id
  | .failed id => some id
  | _ => none

/-- The versions of the saved models. -/
def versions (log : List (Ev ι)) : List Nat := log.filterMap fun
  | .exported _ v _ _ => some v
  | _ => none

/-- The number of a request that got its metadata. -/
def mergedId : Ev ι → Option Nat
  | .merged _ id _ => some id
  | _ => none

/-- What is set on the exporter for a key: the last value added. -/
def lastAdded (k : String) (log : List (Ev ι)) : Option String :=
  log.foldl (fun acc e => match e with
    | .added k' v => if k' = k then some v else acc
    | _ => acc) none

/-- A value as a string. -/
def Text.text : Text → Option String
  | .str s => some s
  | .other (.ok s) => some s
  | .other (.error _) => none

/-- What a call gives for a key. -/
def given (k : String) (md : List (Text × Text)) : Option String :=
  md.foldl (fun acc p => match p.1 with
    | .str k' => if k' = k then p.2.text else acc
    | .other _ => acc) none

/-- Only the main thread processes requests. -/
def MainOnly (calls : Nat → List Call) : Prop :=
  ∀ t, t ≠ 0 → ∀ c ∈ calls t, (∃ k v, c = .addMetadata k v) ∨ ∃ md, c = .exportThreadsafe md

/-- The exporter is not in the middle of an export. -/
def Resting (s : State ι) : Prop := s.queue = [] ∧ ∀ c r own, (s.threads 0).cur ≠ some (c, .exporting r own)

/-! ## Metadata -/

theorem lastAdded_snoc (k : String) (log : List (Ev ι)) (e : Ev ι) : lastAdded k (log ++ [e]) =
    match e with
    | .added k' v => if k' = k then some v else lastAdded k log
    | _ => lastAdded k log := by
  rw [lastAdded, List.foldl_append]
  rfl

theorem clean_snoc (md : List (Text × Text)) (p : Text × Text) : clean (md ++ [p]) = match clean md with
    | .error e => .error e
    | .ok d => match p with
      | (.other _, _) => .error .typeError
      | (.str k, .str v) => .ok (Dict.set d k v)
      | (.str k, .other (.ok v)) => .ok (Dict.set d k v)
      | (.str _, .other (.error _)) => .error .typeError := by
  rw [clean, List.foldl_append]
  rfl

theorem given_snoc (k : String) (md : List (Text × Text)) (p : Text × Text) : given k (md ++ [p]) =
    match p.1 with
    | .str k' => if k' = k then p.2.text else given k md
    | .other _ => given k md := by
  rw [given, List.foldl_append]
  rfl

theorem clean_ok {md : List (Text × Text)} {d : Dict String String} (h : clean md = .ok d) :
    d.keys.Nodup ∧ ∀ k, d.get? k = given k md := by
  induction md using snocInduction generalizing d with
  | nil =>
    simp only [clean, List.foldl_nil, Except.ok.injEq] at h
    subst h
    exact ⟨by simp, fun k => rfl⟩
  | snoc md p ih =>
    rw [clean_snoc] at h
    cases hc : clean md with
    | error e => rw [hc] at h; cases h
    | ok d' =>
      obtain ⟨h1, h2⟩ := ih hc
      rw [hc] at h
      have key : ∀ k v, d = Dict.set d' k v → (p.1 = .str k ∧ p.2.text = some v) →
          d.keys.Nodup ∧ ∀ j, d.get? j = given j (md ++ [p]) := by
        rintro k v rfl ⟨hp, hv⟩
        refine ⟨Dict.nodup_set h1, fun j => ?_⟩
        rw [given_snoc, hp, Dict.get?_set]
        simp only [hv, ← h2 j]
      obtain ⟨a, b⟩ := p
      cases a with
      | other _ => cases h
      | str k =>
        cases b with
        | str v => exact key k v (by simpa using h.symm) ⟨rfl, rfl⟩
        | other r =>
          cases r with
          | error _ => cases h
          | ok v => exact key k v (by simpa using h.symm) ⟨rfl, rfl⟩

/-- The metadata of a request: from the log up to the moment when it was merged. -/
def Merged (log : List (Ev ι)) (r : Request) : Prop :=
  ∃ a t md b, log = a ++ .merged t r.id md :: b ∧ ∀ k, r.props.get? k = (given k md).or (lastAdded k a)

theorem Merged.mono {log : List (Ev ι)} {r : Request} (h : Merged log r) (es : List (Ev ι)) : Merged (log ++ es) r := by
  obtain ⟨a, t, md, b, rfl, h⟩ := h
  exact ⟨a, t, md, b ++ es, by simp, h⟩

theorem split_unique {α : Type v} {β : Type w} {f : α → Option β} {l a a' b b' : List α} {x y : α} {i : β}
    (hn : (l.filterMap f).Nodup) (h1 : l = a ++ x :: b) (h2 : l = a' ++ y :: b') (hx : f x = some i) (hy : f y = some i) :
    a = a' ∧ x = y := by
  induction l generalizing a a' with
  | nil => simp at h1
  | cons z l ih =>
    cases a with
    | nil =>
      simp only [List.nil_append, List.cons.injEq] at h1
      obtain ⟨rfl, rfl⟩ := h1
      cases a' with
      | nil => simp only [List.nil_append, List.cons.injEq] at h2; exact ⟨rfl, h2.1⟩
      | cons z' a' =>
        simp only [List.cons_append, List.cons.injEq] at h2
        rw [List.filterMap_cons_some hx, List.nodup_cons] at hn
        exact absurd (List.mem_filterMap.mpr ⟨y, by rw [h2.2]; simp, hy⟩) hn.1
    | cons z₁ a =>
      simp only [List.cons_append, List.cons.injEq] at h1
      cases a' with
      | nil =>
        simp only [List.nil_append, List.cons.injEq] at h2
        obtain ⟨rfl, -⟩ := h2
        rw [List.filterMap_cons_some hy, List.nodup_cons] at hn
        exact absurd (List.mem_filterMap.mpr ⟨x, by rw [h1.2]; simp, hx⟩) hn.1
      | cons z₂ a' =>
        simp only [List.cons_append, List.cons.injEq] at h2
        have hn' : (l.filterMap f).Nodup := by
          cases hz : f z with
          | none => rwa [List.filterMap_cons_none hz] at hn
          | some j => rw [List.filterMap_cons_some hz, List.nodup_cons] at hn; exact hn.2
        obtain ⟨rfl, h⟩ := ih hn' h1.2 h2.2
        exact ⟨by rw [← h1.1, ← h2.1], h⟩

/-! ## The invariant -/

theorem puts_append (a b : List (Ev ι)) : puts (a ++ b) = puts a ++ puts b := List.filterMap_append

theorem processed_append (a b : List (Ev ι)) : processed (a ++ b) = processed a ++ processed b := List.filterMap_append

theorem versions_append (a b : List (Ev ι)) : versions (a ++ b) = versions a ++ versions b := List.filterMap_append

/-- Calls any thread may make. -/
def Free (c : Call) : Prop := (∃ k v, c = .addMetadata k v) ∨ ∃ md, c = .exportThreadsafe md

/-- A thread can be at this place. -/
def PcOk (log : List (Ev ι)) (t : Nat) (c : Call) : Pc ι → Prop
  | .start => t ≠ 0 → Free c
  | .put r sync => Merged log r ∧ r.id ∉ puts log ∧ (∃ md, .merged t r.id md ∈ log) ∧ (sync = true → t = 0)
  | .loop own => t = 0 ∧ ∀ id, own = some id → id ∈ puts log ∧ ∃ md, .merged t id md ∈ log
  | .exporting r own => Merged log r ∧ t = 0 ∧ ∀ id, own = some id → id ∈ puts log ∧ ∃ md, .merged t id md ∈ log
  | .wait id => id ∈ puts log ∧ ∃ md, .merged t id md ∈ log
  | .done _ => True

theorem PcOk.mono {log : List (Ev ι)} {t : Nat} {c : Call} {pc : Pc ι} (h : PcOk log t c pc) (es : List (Ev ι))
    (hp : ∀ r sync, pc = .put r sync → r.id ∉ puts es) : PcOk (log ++ es) t c pc := by
  have hput : ∀ id, id ∈ puts log → id ∈ puts (log ++ es) := fun id hid => by
    rw [puts_append]; exact List.mem_append_left _ hid
  have hm : ∀ {id}, (∃ md, Ev.merged t id md ∈ log) → ∃ md, Ev.merged t id md ∈ log ++ es := fun ⟨md, h⟩ =>
    ⟨md, List.mem_append_left _ h⟩
  cases pc with
  | start => exact h
  | done _ => trivial
  | put r sync =>
    obtain ⟨h1, h2, h3, h4⟩ := h
    refine ⟨h1.mono es, ?_, hm h3, h4⟩
    rw [puts_append, List.mem_append]
    rintro (h | h)
    · exact h2 h
    · exact hp r sync rfl h
  | loop own => exact ⟨h.1, fun id hid => ⟨hput _ (h.2 id hid).1, hm (h.2 id hid).2⟩⟩
  | exporting r own => exact ⟨h.1.mono es, h.2.1, fun id hid => ⟨hput _ (h.2.2 id hid).1, hm (h.2.2 id hid).2⟩⟩
  | wait id => exact ⟨hput _ h.1, hm h.2⟩

/-- The request that is being exported. -/
def exportingId : Option (Call × Pc ι) → List Nat
  | some (_, .exporting r _) => [r.id]
  | _ => []

structure Inv (s : State ι) : Prop where
  metadata : ∀ k, s.metadata.get? k = lastAdded k s.log
  mergedNodup : (s.log.filterMap mergedId).Nodup
  mergedLt : ∀ id ∈ s.log.filterMap mergedId, id < s.next
  order : processed s.log ++ exportingId (s.threads 0).cur ++ s.queue.map Request.id = puts s.log
  putsNodup : (puts s.log).Nodup
  putsLt : ∀ id ∈ puts s.log, id < s.next
  queued : ∀ r ∈ s.queue, Merged s.log r
  versionsUp : (versions s.log).Pairwise (· < ·)
  versionsLt : ∀ v ∈ versions s.log, v < s.counter
  exportedMerged : ∀ id v p item, .exported id v p item ∈ s.log → Merged s.log ⟨id, p⟩
  events : ∀ id item, s.events id = some item → ∃ v p, .exported id v p item ∈ s.log
  eventSet : ∀ id v p item, .exported id v p item ∈ s.log → (s.events id).isSome
  returned : ∀ a t id item b, s.log = a ++ .returned t id item :: b →
    (∃ v p, .exported id v p item ∈ a) ∧ ∃ md, .merged t id md ∈ a
  places : ∀ t c pc, (s.threads t).cur = some (c, pc) → PcOk s.log t c pc
  todo : ∀ t, t ≠ 0 → ∀ c ∈ (s.threads t).todo, Free c

theorem inv_start {calls : Nat → List Call} (h : MainOnly calls) : Inv (start (ι := ι) calls) where
  metadata k := rfl
  mergedNodup := by simp [start]
  mergedLt := by simp [start]
  order := rfl
  putsNodup := by simp [start, puts]
  putsLt := by simp [start, puts]
  queued := by simp [start]
  versionsUp := by simp [start, versions]
  versionsLt := by simp [start, versions]
  exportedMerged := by simp [start]
  events := by simp [start]
  eventSet := by simp [start]
  returned := by simp [start]
  places t c pc h := by simp [start] at h
  todo t ht c hc := h t ht c hc

theorem merged_unique {s : State ι} (h : Inv s) {t u id : Nat} {md md' : List (Text × Text)} (h1 : .merged t id md ∈ s.log)
    (h2 : .merged u id md' ∈ s.log) : t = u := by
  obtain ⟨a, b, ha⟩ := List.append_of_mem h1
  obtain ⟨a', b', ha'⟩ := List.append_of_mem h2
  obtain ⟨_, h⟩ := split_unique h.mergedNodup ha ha' rfl rfl
  cases h
  rfl

/-- A step of one thread with events `es`. -/
theorem Inv.next {s s' : State ι} (h : Inv s) {t : Nat} {es : List (Ev ι)} {cur : Option (Call × Pc ι)}
    (hlog : s'.log = s.log ++ es)
    (hcur : ∀ u, (s'.threads u).cur = if u = t then cur else (s.threads u).cur)
    (htodo : ∀ u, ∀ c ∈ (s'.threads u).todo, c ∈ (s.threads u).todo)
    (hplace : ∀ c pc, cur = some (c, pc) → PcOk s'.log t c pc)
    (hmeta : ∀ k, s'.metadata.get? k = lastAdded k s'.log)
    (hnext : s.next ≤ s'.next)
    (hmn : (es.filterMap mergedId).Nodup) (hml : ∀ id ∈ es.filterMap mergedId, s.next ≤ id ∧ id < s'.next)
    (horder : processed s'.log ++ exportingId (s'.threads 0).cur ++ s'.queue.map Request.id = puts s'.log)
    (hpn : (puts es).Nodup)
    (hput : ∀ id ∈ puts es, ∃ c r sync, (s.threads t).cur = some (c, .put r sync) ∧ r.id = id)
    (hqueue : ∀ r ∈ s'.queue, Merged s'.log r)
    (hvu : (versions s'.log).Pairwise (· < ·)) (hvl : ∀ v ∈ versions s'.log, v < s'.counter)
    (hem : ∀ id v p item, .exported id v p item ∈ es → Merged s.log ⟨id, p⟩)
    (hev : ∀ id item, s'.events id = some item → ∃ v p, .exported id v p item ∈ s'.log)
    (hes : ∀ id v p item, .exported id v p item ∈ s'.log → (s'.events id).isSome)
    (hret : ∀ u id item, .returned u id item ∈ es → es = [.returned u id item] ∧ (∃ v p, .exported id v p item ∈ s.log) ∧
      ∃ md, .merged u id md ∈ s.log) : Inv s' where
  metadata := hmeta
  mergedNodup := by
    rw [hlog, List.filterMap_append, List.nodup_append]
    refine ⟨h.mergedNodup, hmn, fun a ha b hb => ?_⟩
    have := h.mergedLt a ha
    have := (hml b hb).1
    omega
  mergedLt := by
    intro id hid
    rw [hlog, List.filterMap_append, List.mem_append] at hid
    rcases hid with hid | hid
    · exact Nat.lt_of_lt_of_le (h.mergedLt id hid) hnext
    · exact (hml id hid).2
  order := horder
  putsNodup := by
    rw [hlog, puts_append, List.nodup_append]
    refine ⟨h.putsNodup, hpn, fun a ha b hb => ?_⟩
    obtain ⟨c, r, sync, hc, rfl⟩ := hput b hb
    have := (h.places t c _ hc).2.1
    rintro rfl
    exact this ha
  putsLt := by
    intro id hid
    rw [hlog, puts_append, List.mem_append] at hid
    rcases hid with hid | hid
    · exact Nat.lt_of_lt_of_le (h.putsLt id hid) hnext
    · obtain ⟨c, r, sync, hc, rfl⟩ := hput id hid
      obtain ⟨md, hmd⟩ := (h.places t c _ hc).2.2.1
      exact Nat.lt_of_lt_of_le (h.mergedLt _ (List.mem_filterMap.mpr ⟨_, hmd, rfl⟩)) hnext
  queued := hqueue
  versionsUp := hvu
  versionsLt := hvl
  exportedMerged := by
    intro id v p item hm
    rw [hlog] at hm ⊢
    rcases List.mem_append.mp hm with hm | hm
    · exact (h.exportedMerged id v p item hm).mono es
    · exact (hem id v p item hm).mono es
  events := hev
  eventSet := hes
  returned := by
    intro a u id item b hsplit
    rw [hlog] at hsplit
    rcases List.append_eq_append_iff.mp hsplit with ⟨a', ha, hb⟩ | ⟨b', ha, hb⟩
    · -- in `es`
      have hm : Ev.returned u id item ∈ es := by rw [hb]; simp
      obtain ⟨h1, ⟨v, p, h2⟩, md, h3⟩ := hret u id item hm
      subst ha
      exact ⟨⟨v, p, List.mem_append_left _ h2⟩, md, List.mem_append_left _ h3⟩
    · cases b' with
      | nil =>
        simp only [List.nil_append] at hb
        have hm : Ev.returned u id item ∈ es := by rw [← hb]; simp
        obtain ⟨h1, h2, h3⟩ := hret u id item hm
        simp only [List.append_nil] at ha
        rw [← ha]
        exact ⟨h2, h3⟩
      | cons e b' =>
        simp only [List.cons_append, List.cons.injEq] at hb
        obtain ⟨rfl, -⟩ := hb
        exact h.returned a u id item b' ha
  places := by
    intro u c pc hc
    rw [hcur] at hc
    split at hc
    · next hu =>
      subst hu
      exact hplace c pc hc
    · next hu =>
      rw [hlog]
      refine (h.places u c pc hc).mono es ?_
      rintro r sync rfl hm
      obtain ⟨c', r', sync', hc', hid⟩ := hput _ hm
      obtain ⟨md, h1⟩ := (h.places u c _ hc).2.2.1
      obtain ⟨md', h2⟩ := (h.places t c' _ hc').2.2.1
      rw [hid] at h2
      exact hu (merged_unique h h1 h2)
  todo := fun u hu c hc => h.todo u hu c (htodo u c hc)

theorem setThread_cur (s : State ι) (t : Nat) (l : List Call) (cur : Option (Call × Pc ι)) (u : Nat) :
    (s.setThread t ⟨l, cur⟩ u).cur = if u = t then cur else (s.threads u).cur := by
  unfold State.setThread
  split <;> rfl

theorem setThread_todo (s : State ι) (t : Nat) (cur : Option (Call × Pc ι)) (u : Nat) :
    (s.setThread t ⟨(s.threads t).todo, cur⟩ u).todo = (s.threads u).todo := by
  unfold State.setThread
  split
  · next h => rw [h]
  · rfl

/-- A step without an event that changes nothing but the place. -/
theorem Inv.silent {s : State ι} (h : Inv s) {t : Nat} {cur : Option (Call × Pc ι)}
    (hplace : ∀ c pc, cur = some (c, pc) → PcOk s.log t c pc)
    (he : t = 0 → exportingId (s.threads 0).cur = [] ∧ exportingId cur = []) :
    Inv { s with threads := s.setThread t ⟨(s.threads t).todo, cur⟩ } := by
  refine h.next (t := t) (es := []) (cur := cur) (by simp) (fun u => setThread_cur ..)
    (fun u c hc => by rwa [setThread_todo] at hc) hplace h.metadata (Nat.le_refl _) (by simp) (by simp) ?_ (by simp [puts])
    (by simp [puts]) h.queued h.versionsUp h.versionsLt (by simp) h.events h.eventSet (by simp)
  have h0 := h.order
  simp only [setThread_cur]
  split
  · next h' =>
    obtain ⟨h1, h2⟩ := he h'.symm
    rw [h1] at h0
    rw [h2]
    exact h0
  · exact h0

theorem request_inv {s : State ι} (h : Inv s) {t : Nat} {c : Call} (hc : (s.threads t).cur = some (c, .start))
    (md : List (Text × Text)) (sync : Bool) (hs : sync = true → t = 0) : Inv (s.request t c md sync) := by
  unfold State.request
  cases hcl : clean md with
  | error e =>
    refine h.silent ?_ ?_
    · rintro _ _ ⟨⟩
      trivial
    · rintro rfl
      rw [hc]
      exact ⟨rfl, rfl⟩
  | ok d =>
    obtain ⟨hn, hg⟩ := clean_ok hcl
    refine h.next (t := t) (es := [.merged t s.next md]) (cur := some (c, .put ⟨s.next, merge s.metadata d⟩ sync)) rfl
      (fun u => setThread_cur ..) (fun u c hc => by simp only [State.goto, setThread_todo] at hc; exact hc) ?_ ?_
      (by simp) (by simp [mergedId]) (by simp [mergedId]) ?_ (by simp [puts])
      (by simp [puts]) (fun r hr => (h.queued r hr).mono _) (by simpa [versions, State.goto] using h.versionsUp)
      (by simpa [versions, State.goto] using h.versionsLt) (by simp)
      ?_ ?_ (by simp)
    · rintro _ _ ⟨⟩
      refine ⟨⟨s.log, t, md, [], rfl, fun k => ?_⟩, ?_, ⟨md, by simp⟩, hs⟩
      · rw [merge, Dict.get?_update _ _ hn, hg, h.metadata]
        cases given k md <;> rfl
      · intro hm
        have : s.next ∈ puts s.log := by
          rw [puts_append] at hm
          simpa [puts] using hm
        exact Nat.lt_irrefl _ (h.putsLt _ this)
    · intro k
      rw [lastAdded_snoc]
      exact h.metadata k
    · have h0 := h.order
      simp only [State.goto, setThread_cur, processed_append, puts_append]
      have e1 : processed ([Ev.merged t s.next md] : List (Ev ι)) = [] := rfl
      have e2 : puts ([Ev.merged t s.next md] : List (Ev ι)) = [] := rfl
      rw [e1, e2, List.append_nil, List.append_nil]
      split
      · next h' =>
        rw [h', hc] at h0
        exact h0
      · exact h0
    · intro id item hi
      obtain ⟨v, p, hm⟩ := h.events id item hi
      exact ⟨v, p, List.mem_append_left _ hm⟩
    · intro id v p item hm
      refine h.eventSet id v p item ?_
      simpa using hm

theorem advance_inv {s : State ι} (h : Inv s) {t : Nat} {c : Call} {pc : Pc ι} (hc : (s.threads t).cur = some (c, pc))
    (o : Outcome ι) : Inv (advance s t c o pc) := by
  have hp := h.places t c pc hc
  have h0 := h.order
  cases pc with
  | start =>
    have hfree : t = 0 ∨ Free c := by
      by_cases ht : t = 0
      · exact Or.inl ht
      · exact Or.inr (hp ht)
    cases c with
    | addMetadata key value =>
      simp only [advance]
      cases hcv : convert key value with
      | error e =>
        refine h.silent ?_ ?_
        · rintro _ _ ⟨⟩
          trivial
        · rintro rfl
          rw [hc]
          exact ⟨rfl, rfl⟩
      | ok kv =>
        obtain ⟨k, v⟩ := kv
        refine h.next (t := t) (es := [.added k v]) (cur := some (.addMetadata key value, .done (.ok none))) rfl
          (fun u => setThread_cur ..) (fun u c hc => by simp only [State.goto, setThread_todo] at hc; exact hc)
          (by rintro _ _ ⟨⟩; trivial) ?_
          (Nat.le_refl _) List.nodup_nil (by intro id hid; cases hid) ?_ (by simp [puts])
          (by simp [puts]) (fun r hr => (h.queued r hr).mono _) (by simpa [versions, State.goto] using h.versionsUp)
          (by simpa [versions, State.goto] using h.versionsLt) (by simp)
          ?_ ?_ (by simp)
        · intro j
          rw [lastAdded_snoc, Dict.get?_set]
          simp only [h.metadata j]
        · simp only [State.goto, setThread_cur, processed_append, puts_append]
          have e1 : processed ([Ev.added k v] : List (Ev ι)) = [] := rfl
          have e2 : puts ([Ev.added k v] : List (Ev ι)) = [] := rfl
          rw [e1, e2, List.append_nil, List.append_nil]
          split
          · next h' =>
            rw [h', hc] at h0
            exact h0
          · exact h0
        · intro id item hi
          obtain ⟨v, p, hm⟩ := h.events id item hi
          exact ⟨v, p, List.mem_append_left _ hm⟩
        · intro id v p item hm
          refine h.eventSet id v p item ?_
          simpa using hm
    | exportSync md =>
      refine request_inv h hc md true fun _ => ?_
      rcases hfree with h | ⟨_, _, h⟩ | ⟨_, h⟩
      · exact h
      · cases h
      · cases h
    | exportThreadsafe md => exact request_inv h hc md false (by simp)
    | process =>
      have ht : t = 0 := by
        rcases hfree with h | ⟨_, _, h⟩ | ⟨_, h⟩
        · exact h
        · cases h
        · cases h
      refine h.silent ?_ ?_
      · rintro _ _ ⟨⟩
        exact ⟨ht, by simp⟩
      · rintro rfl
        rw [hc]
        exact ⟨rfl, rfl⟩
  | put r sync =>
    obtain ⟨h1, h2, ⟨md, h3⟩, h4⟩ := hp
    refine h.next (t := t) (es := [.put r.id]) (cur := some (c, if sync then .loop (some r.id) else .wait r.id)) rfl
      (fun u => setThread_cur ..) (fun u c hc => by simp only [advance, State.goto, setThread_todo] at hc; exact hc)
      ?_ ?_ (Nat.le_refl _) List.nodup_nil (by intro id hid; cases hid) ?_ (by simp [puts])
      (by
        intro id hid
        have : id = r.id := by simpa [puts] using hid
        exact ⟨c, r, sync, hc, this.symm⟩) ?_ (by simpa [versions, State.goto, advance] using h.versionsUp)
      (by simpa [versions, State.goto, advance] using h.versionsLt) (by simp)
      ?_ ?_ (by simp)
    · intro c' pc' he
      simp only [Option.some.injEq, Prod.mk.injEq] at he
      obtain ⟨rfl, rfl⟩ := he
      have hm : r.id ∈ puts (s.log ++ [.put r.id]) := by rw [puts_append]; simp [puts]
      have hm' : ∃ md, Ev.merged t r.id md ∈ s.log ++ [.put r.id] := ⟨md, by simp [h3]⟩
      cases sync with
      | true => exact ⟨h4 rfl, fun id hid => by cases hid; exact ⟨hm, hm'⟩⟩
      | false => exact ⟨hm, hm'⟩
    · intro k
      simp only [advance]
      rw [lastAdded_snoc]
      exact h.metadata k
    · simp only [advance, State.goto, setThread_cur, processed_append, puts_append]
      have e1 : processed ([Ev.put r.id] : List (Ev ι)) = [] := rfl
      have e2 : puts ([Ev.put r.id] : List (Ev ι)) = [r.id] := rfl
      rw [e1, e2, List.append_nil, ← h0, List.map_append]
      split
      · next h' =>
        rw [h', hc]
        cases sync <;> simp [exportingId]
      · simp
    · intro r' hr'
      simp only [advance] at hr' ⊢
      rcases List.mem_append.mp hr' with hr' | hr'
      · exact (h.queued r' hr').mono _
      · simp only [List.mem_singleton] at hr'
        subst hr'
        exact h1.mono _
    · intro id item hi
      obtain ⟨v, p, hm⟩ := h.events id item hi
      exact ⟨v, p, List.mem_append_left _ hm⟩
    · intro id v p item hm
      refine h.eventSet id v p item ?_
      simpa [advance] using hm
  | loop own =>
    obtain ⟨rfl, hown⟩ := hp
    simp only [advance]
    cases hq : s.queue with
    | nil =>
      refine h.silent ?_ ?_
      · rintro _ _ ⟨⟩
        cases own with
        | none => trivial
        | some id => exact hown id rfl
      · intro _
        rw [hc]
        cases own <;> exact ⟨rfl, rfl⟩
    | cons r q =>
      refine h.next (t := 0) (es := []) (cur := some (c, .exporting r own)) (by simp [State.goto])
        (fun u => setThread_cur ..) (fun u c hc => by simp only [State.goto, setThread_todo] at hc; exact hc)
        ?_ h.metadata (Nat.le_refl _) (by simp) (by simp) ?_ (by simp [puts])
        (by simp [puts]) (fun r' hr' => h.queued r' (by rw [hq]; exact List.mem_cons_of_mem _ hr')) h.versionsUp
        h.versionsLt (by simp) h.events h.eventSet (by simp)
      · rintro _ _ ⟨⟩
        exact ⟨h.queued r (by rw [hq]; simp), rfl, hown⟩
      · rw [hc, hq] at h0
        simp only [State.goto, setThread_cur, if_true]
        rw [← h0]
        simp [exportingId]
  | exporting r own =>
    obtain ⟨hm, rfl, hown⟩ := hp
    rw [hc] at h0
    have hown' : ∀ (es : List (Ev ι)) id, own = some id →
        id ∈ puts (s.log ++ es) ∧ ∃ md, .merged 0 id md ∈ s.log ++ es := by
      intro es id hid
      obtain ⟨h1, md, h2⟩ := hown id hid
      exact ⟨by rw [puts_append]; exact List.mem_append_left _ h1, md, List.mem_append_left _ h2⟩
    cases o with
    | ok item =>
      refine h.next (t := 0) (es := [.exported r.id s.counter r.props item]) (cur := some (c, .loop own)) rfl
        (fun u => setThread_cur ..) (fun u c hc => by simp only [advance, State.goto, setThread_todo] at hc; exact hc)
        ?_ ?_ (Nat.le_refl _) List.nodup_nil (by intro id hid; cases hid) ?_ (by simp [puts])
        (by simp [puts]) (fun r hr => (h.queued r hr).mono _) ?_ ?_ ?_ ?_ ?_ (by simp)
      · rintro _ _ ⟨⟩
        exact ⟨rfl, hown' _⟩
      · intro k
        simp only [advance]
        rw [lastAdded_snoc]
        exact h.metadata k
      · simp only [advance, State.goto, setThread_cur, processed_append, puts_append, if_true]
        rw [← h0]
        simp [exportingId, processed, puts]
      · simp only [advance, versions_append]
        rw [List.pairwise_append]
        refine ⟨h.versionsUp, by simp [versions], fun a ha b hb => ?_⟩
        have : b = s.counter := by simpa [versions] using hb
        rw [this]
        exact h.versionsLt a ha
      · simp only [advance, versions_append]
        intro v hv
        rcases List.mem_append.mp hv with hv | hv
        · have := h.versionsLt v hv
          omega
        · have : v = s.counter := by simpa [versions] using hv
          omega
      · intro id v p item' he
        simp only [List.mem_singleton, Ev.exported.injEq] at he
        obtain ⟨rfl, rfl, rfl, rfl⟩ := he
        exact hm
      · intro id item' hi
        simp only [advance] at hi ⊢
        split at hi
        · next hid =>
          subst hid
          cases hi
          exact ⟨s.counter, r.props, by simp⟩
        · obtain ⟨v, p, h'⟩ := h.events id item' hi
          exact ⟨v, p, List.mem_append_left _ h'⟩
      · intro id v p item' he
        simp only [advance] at he ⊢
        split
        · rfl
        · next hid =>
          rcases List.mem_append.mp he with he | he
          · exact h.eventSet id v p item' he
          · simp only [List.mem_singleton, Ev.exported.injEq] at he
            exact absurd he.1 hid
    | early e =>
      refine h.next (t := 0) (es := [.failed r.id]) (cur := some (c, .done (.error e))) rfl
        (fun u => setThread_cur ..) (fun u c hc => by simp only [advance, State.goto, setThread_todo] at hc; exact hc)
        (by rintro _ _ ⟨⟩; trivial) ?_ (Nat.le_refl _) List.nodup_nil (by intro id hid; cases hid) ?_ (by simp [puts])
        (by simp [puts]) (fun r hr => (h.queued r hr).mono _) (by simpa [versions, State.goto, advance] using h.versionsUp)
        (by simpa [versions, State.goto, advance] using h.versionsLt) (by simp) ?_ ?_ (by simp)
      · intro k
        simp only [advance]
        rw [lastAdded_snoc]
        exact h.metadata k
      · simp only [advance, State.goto, setThread_cur, processed_append, puts_append, if_true]
        rw [← h0]
        simp [exportingId, processed, puts]
      · intro id item hi
        obtain ⟨v, p, hm⟩ := h.events id item hi
        exact ⟨v, p, List.mem_append_left _ hm⟩
      · intro id v p item hm
        refine h.eventSet id v p item ?_
        simpa [advance] using hm
    | late e =>
      refine h.next (t := 0) (es := [.failed r.id]) (cur := some (c, .done (.error e))) rfl
        (fun u => setThread_cur ..) (fun u c hc => by simp only [advance, State.goto, setThread_todo] at hc; exact hc)
        (by rintro _ _ ⟨⟩; trivial) ?_ (Nat.le_refl _) List.nodup_nil (by intro id hid; cases hid) ?_ (by simp [puts])
        (by simp [puts]) (fun r hr => (h.queued r hr).mono _) (by simpa [versions, State.goto, advance] using h.versionsUp)
        ?_ (by simp) ?_ ?_ (by simp)
      · intro k
        simp only [advance]
        rw [lastAdded_snoc]
        exact h.metadata k
      · simp only [advance, State.goto, setThread_cur, processed_append, puts_append, if_true]
        rw [← h0]
        simp [exportingId, processed, puts]
      · intro v hv
        have : v ∈ versions s.log := by simpa [versions, State.goto, advance] using hv
        have := h.versionsLt v this
        simp only [advance]
        omega
      · intro id item hi
        obtain ⟨v, p, hm⟩ := h.events id item hi
        exact ⟨v, p, List.mem_append_left _ hm⟩
      · intro id v p item hm
        refine h.eventSet id v p item ?_
        simpa [advance] using hm
  | wait id =>
    obtain ⟨hput, md, hmd⟩ := hp
    simp only [advance]
    cases hev : s.events id with
    | none => exact h
    | some item =>
      refine h.next (t := t) (es := [.returned t id item]) (cur := some (c, .done (.ok (some item)))) rfl
        (fun u => setThread_cur ..) (fun u c hc => by simp only [State.goto, setThread_todo] at hc; exact hc)
        (by rintro _ _ ⟨⟩; trivial) ?_ (Nat.le_refl _) List.nodup_nil (by intro id hid; cases hid) ?_ (by simp [puts])
        (by simp [puts]) (fun r hr => (h.queued r hr).mono _) (by simpa [versions, State.goto] using h.versionsUp)
        (by simpa [versions, State.goto] using h.versionsLt) (by simp) ?_ ?_ ?_
      · intro k
        rw [lastAdded_snoc]
        exact h.metadata k
      · simp only [State.goto, setThread_cur, processed_append, puts_append]
        have e1 : processed ([Ev.returned t id item] : List (Ev ι)) = [] := rfl
        have e2 : puts ([Ev.returned t id item] : List (Ev ι)) = [] := rfl
        rw [e1, e2, List.append_nil, List.append_nil]
        split
        · next h' =>
          rw [h', hc] at h0
          exact h0
        · exact h0
      · intro id item hi
        obtain ⟨v, p, hm⟩ := h.events id item hi
        exact ⟨v, p, List.mem_append_left _ hm⟩
      · intro id v p item hm
        refine h.eventSet id v p item ?_
        simpa using hm
      · intro u id' item' he
        simp only [List.mem_singleton, Ev.returned.injEq] at he
        obtain ⟨rfl, rfl, rfl⟩ := he
        exact ⟨rfl, h.events _ _ hev, md, hmd⟩
  | done r =>
    refine h.silent (by simp) ?_
    rintro rfl
    rw [hc]
    exact ⟨rfl, rfl⟩

theorem step_inv {s : State ι} (h : Inv s) (x : Nat × Outcome ι) : Inv (step s x) := by
  obtain ⟨t, o⟩ := x
  unfold step
  simp only
  cases hc : (s.threads t).cur with
  | some p =>
    obtain ⟨c, pc⟩ := p
    exact advance_inv h hc o
  | none =>
    simp only
    cases ht : (s.threads t).todo with
    | nil => exact h
    | cons c cs =>
      have hsub : ∀ u, ∀ c' ∈ (s.setThread t ⟨cs, some (c, .start)⟩ u).todo, c' ∈ (s.threads u).todo := by
        intro u c' hc'
        unfold State.setThread at hc'
        split at hc'
        · next hu => rw [hu, ht]; exact List.mem_cons_of_mem _ hc'
        · exact hc'
      refine h.next (t := t) (es := []) (cur := some (c, .start)) (by simp) (fun u => setThread_cur ..) hsub ?_
        h.metadata (Nat.le_refl _) (by simp) (by simp) ?_ (by simp [puts])
        (by simp [puts]) h.queued h.versionsUp h.versionsLt (by simp) h.events h.eventSet (by simp)
      · rintro _ _ ⟨⟩ htne
        exact h.todo t htne c (by rw [ht]; simp)
      · have h0 := h.order
        simp only [setThread_cur]
        split
        · next h' =>
          rw [h', hc] at h0
          exact h0
        · exact h0

theorem run_inv {s : State ι} (h : Inv s) (turns : List (Nat × Outcome ι)) : Inv (run s turns) := by
  induction turns generalizing s with
  | nil => exact h
  | cons x turns ih => exact ih (step_inv h x)

/-! ## C54 -/

/-- C54: requests are processed in the order in which they were put into the queue, each at most once; and whenever the
queue is empty and no export is going on, each has been processed exactly once. -/
theorem C54_order {calls : Nat → List Call} (hm : MainOnly calls) (turns : List (Nat × Outcome ι)) :
    processed (run (start calls) turns).log <+: puts (run (start calls) turns).log ∧
    (puts (run (start calls) turns).log).Nodup ∧
    (Resting (run (start calls) turns) →
      processed (run (start calls) turns).log = puts (run (start calls) turns).log) := by
  have h := run_inv (inv_start hm) turns (ι := ι)
  refine ⟨⟨_, by rw [← h.order, List.append_assoc]⟩, h.putsNodup, fun ⟨h1, h2⟩ => ?_⟩
  have h0 := h.order
  rw [h1] at h0
  have : exportingId ((run (start calls) turns).threads 0).cur = [] := by
    cases hc : ((run (start (ι := ι) calls) turns).threads 0).cur with
    | none => rfl
    | some p =>
      obtain ⟨c, pc⟩ := p
      cases pc <;> try rfl
      exact absurd hc (h2 _ _ _)
  rw [this] at h0
  simpa using h0

/-- C54: the versions of the saved models are strictly increasing. -/
theorem C54_versions {calls : Nat → List Call} (hm : MainOnly calls) (turns : List (Nat × Outcome ι)) :
    (versions (run (start calls) turns).log).Pairwise (· < ·) := (run_inv (inv_start hm) turns).versionsUp

/-- Where everything comes from: the calls are those of the threads, what was set on the exporter was passed to `add_metadata`,
and as long as nothing failed the versions count the saved models. -/
structure Source (calls : Nat → List Call) (s : State ι) : Prop where
  todo : ∀ t, ∀ c ∈ (s.threads t).todo, c ∈ calls t
  cur : ∀ t c pc, (s.threads t).cur = some (c, pc) → c ∈ calls t
  added : ∀ k v, .added k v ∈ s.log → ∃ t value, .addMetadata (.str k) value ∈ calls t ∧ value.text = some v
  count : (∀ id, .failed id ∉ s.log) → versions s.log = List.range s.counter

theorem Source.goto {calls : Nat → List Call} {s : State ι} (h : Source calls s) {t : Nat} {c : Call} {pc : Pc ι}
    (hc : (s.threads t).cur = some (c, pc)) (pc' : Pc ι) : Source calls (s.goto t c pc') where
  todo := by
    intro u c' hc'
    unfold State.goto State.setThread at hc'
    by_cases hu : u = t
    · subst hu; simp only [if_true] at hc'; exact h.todo _ _ hc'
    · simp only [if_neg hu] at hc'; exact h.todo _ _ hc'
  cur := by
    intro u c' pc'' hc'
    unfold State.goto State.setThread at hc'
    by_cases hu : u = t
    · subst hu; simp only [if_true, Option.some.injEq, Prod.mk.injEq] at hc'; rw [← hc'.1]; exact h.cur _ _ _ hc
    · simp only [if_neg hu] at hc'; exact h.cur _ _ _ hc'
  added := h.added
  count := h.count

/-- Entries of the log that say nothing about metadata and versions. -/
theorem Source.log {calls : Nat → List Call} {s s' : State ι} (h : Source calls s) (e : Ev ι) (hth : s'.threads = s.threads)
    (hl : s'.log = s.log ++ [e])
    (ha : ∀ k v, e = .added k v → ∃ t value, .addMetadata (.str k) value ∈ calls t ∧ value.text = some v)
    (hv : (∀ id, e ≠ .failed id) → versions s.log = List.range s.counter → versions (s.log ++ [e]) = List.range s'.counter) :
    Source calls s' where
  todo := by rw [hth]; exact h.todo
  cur := by rw [hth]; exact h.cur
  added := by
    intro k v hm
    rw [hl] at hm
    rcases List.mem_append.1 hm with hm | hm
    · exact h.added k v hm
    · exact ha k v (List.mem_singleton.1 hm).symm
  count := by
    intro hf
    rw [hl] at hf ⊢
    exact hv (fun id he => hf id (by simp [he])) (h.count fun id hm => hf id (by simp [hm]))

theorem source_step {calls : Nat → List Call} {s : State ι} (h : Source calls s) (x : Nat × Outcome ι) :
    Source calls (step s x) := by
  obtain ⟨t, o⟩ := x
  unfold step
  simp only
  cases hc : (s.threads t).cur with
  | none =>
    simp only
    cases ht : (s.threads t).todo with
    | nil => exact h
    | cons c cs =>
      refine ⟨?_, ?_, h.added, h.count⟩
      · intro u c' hc'
        simp only [State.setThread] at hc'
        by_cases hu : u = t
        · subst hu; simp only [if_true] at hc'; exact h.todo _ _ (by rw [ht]; exact List.mem_cons_of_mem _ hc')
        · simp only [if_neg hu] at hc'; exact h.todo _ _ hc'
      · intro u c' pc' hc'
        simp only [State.setThread] at hc'
        by_cases hu : u = t
        · subst hu
          simp only [if_true, Option.some.injEq, Prod.mk.injEq] at hc'
          rw [← hc'.1]; exact h.todo _ _ (by rw [ht]; exact List.mem_cons_self)
        · simp only [if_neg hu] at hc'; exact h.cur _ _ _ hc'
  | some p =>
    obtain ⟨c, pc⟩ := p
    simp only
    have quiet : ∀ (pc' : Pc ι) (e : Ev ι) (s' : State ι), s'.threads = (s.goto t c pc').threads → s'.log = s.log ++ [e] →
        s'.counter = s.counter → (∀ k v, e ≠ .added k v) → (∀ id v p i, e ≠ .exported id v p i) → Source calls s' := by
      intro pc' e s' h1 h2 h3 h4 h5
      refine (h.goto hc pc').log e h1 h2 (fun k v he => absurd he (h4 k v)) fun _ hv => ?_
      have : versions [e] = [] := by
        cases e with
        | exported id v p i => exact absurd rfl (h5 id v p i)
        | _ => rfl
      rw [versions, List.filterMap_append]
      show versions s.log ++ versions [e] = _
      rw [this, List.append_nil, h3]
      exact hv
    have request : ∀ md sync, Source calls (s.request t c md sync) := by
      intro md sync
      unfold State.request
      cases clean md with
      | error e => exact h.goto hc _
      | ok d => exact quiet _ _ _ rfl rfl rfl (by simp) (by simp)
    cases pc with
    | start =>
      cases c with
      | addMetadata key value =>
        simp only [advance]
        cases hcv : convert key value with
        | error e => exact h.goto hc _
        | ok kv =>
          obtain ⟨k, v⟩ := kv
          refine (h.goto hc _).log (.added k v) rfl rfl ?_ ?_
          · rintro k' v' he
            cases he
            refine ⟨t, value, ?_⟩
            have hm := h.cur _ _ _ hc
            cases key with
            | other x => simp [convert] at hcv
            | str key =>
              cases value with
              | str y => simp only [convert, Except.ok.injEq, Prod.mk.injEq] at hcv; obtain ⟨rfl, rfl⟩ := hcv; exact ⟨hm, rfl⟩
              | other y =>
                cases y with
                | error e => simp [convert] at hcv
                | ok y => simp only [convert, Except.ok.injEq, Prod.mk.injEq] at hcv; obtain ⟨rfl, rfl⟩ := hcv; exact ⟨hm, rfl⟩
          · intro _ hv
            rw [versions, List.filterMap_append]
            show versions s.log ++ [] = _
            rw [List.append_nil]
            exact hv
      | exportSync md => exact request md true
      | exportThreadsafe md => exact request md false
      | process => exact h.goto hc _
    | put r sync => exact quiet _ _ _ rfl rfl rfl (by simp) (by simp)
    | loop own =>
      simp only [advance]
      cases s.queue with
      | nil => exact h.goto hc _
      | cons r q =>
        have := h.goto hc (.exporting r own)
        exact ⟨this.todo, this.cur, this.added, this.count⟩
    | exporting r own =>
      cases o with
      | ok item =>
        refine (h.goto hc _).log (.exported r.id s.counter r.props item) rfl rfl (by simp) fun _ hv => ?_
        rw [versions, List.filterMap_append]
        show versions s.log ++ [s.counter] = List.range (s.counter + 1)
        rw [List.range_succ]
        exact congrArg (· ++ [s.counter]) hv
      | early e => exact (h.goto hc _).log (.failed r.id) rfl rfl (by simp) fun hf _ => absurd rfl (hf _)
      | late e => exact (h.goto hc _).log (.failed r.id) rfl rfl (by simp) fun hf _ => absurd rfl (hf _)
    | wait id =>
      simp only [advance]
      cases s.events id with
      | none => exact h
      | some item => exact quiet _ _ _ rfl rfl rfl (by simp) (by simp)
    | done r =>
      refine ⟨?_, ?_, h.added, h.count⟩
      · intro u c' hc'
        simp only [advance, State.setThread] at hc'
        by_cases hu : u = t
        · subst hu; simp only [if_true] at hc'; exact h.todo _ _ hc'
        · simp only [if_neg hu] at hc'; exact h.todo _ _ hc'
      · intro u c' pc' hc'
        simp only [advance, State.setThread] at hc'
        by_cases hu : u = t
        · subst hu; simp at hc'
        · simp only [if_neg hu] at hc'; exact h.cur _ _ _ hc'

theorem source_run (calls : Nat → List Call) (turns : List (Nat × Outcome ι)) : Source calls (run (start calls) turns) := by
  suffices h : ∀ (turns : List (Nat × Outcome ι)) s, Source calls s → Source calls (run s turns) from
    h turns _ ⟨fun t c hc => hc, fun t c pc hc => (by cases hc), fun k v hm => (by cases hm), fun _ => rfl⟩
  intro turns
  induction turns with
  | nil => exact fun s h => h
  | cons x turns ih => exact fun s h => ih _ (source_step h x)

/-- C54: as long as no export has failed, the saved models are numbered 0, 1, 2, … in the order in which they are saved. -/
theorem C54_numbers (calls : Nat → List Call) (turns : List (Nat × Outcome ι))
    (hf : ∀ id, .failed id ∉ (run (start (ι := ι) calls) turns).log) :
    ∃ n, versions (run (start (ι := ι) calls) turns).log = List.range n := ⟨_, (source_run calls turns).count hf⟩

/-- C54: what is set on the exporter for a key was passed to `add_metadata` for this key, as a string or as something whose
string it is. -/
theorem C54_added (calls : Nat → List Call) (turns : List (Nat × Outcome ι)) (k v : String)
    (h : .added k v ∈ (run (start (ι := ι) calls) turns).log) :
    ∃ t value, .addMetadata (.str k) value ∈ calls t ∧ value.text = some v := (source_run calls turns).added k v h

/-- C54: the metadata of a saved model are those set on the exporter at one moment of the call, overridden by those of the
call. -/
theorem C54_metadata {calls : Nat → List Call} (hm : MainOnly calls) (turns : List (Nat × Outcome ι))
    {a b : List (Ev ι)} {t id v : Nat} {md : List (Text × Text)} {p : Dict String String} {item : ι}
    (ha : (run (start calls) turns).log = a ++ .merged t id md :: b)
    (he : .exported id v p item ∈ (run (start calls) turns).log) (k : String) :
    p.get? k = (given k md).or (lastAdded k a) := by
  have h := run_inv (inv_start hm) turns (ι := ι)
  obtain ⟨a', t', md', b', h1, h2⟩ := h.exportedMerged id v p item he
  obtain ⟨h3, h4⟩ := split_unique h.mergedNodup ha h1 rfl rfl
  cases h4
  rw [h3]
  exact h2 k

/-- C54: an export call returns only after its own request has been exported, with the item of that export. -/
theorem C54_returns {calls : Nat → List Call} (hm : MainOnly calls) (turns : List (Nat × Outcome ι))
    {a b : List (Ev ι)} {t id : Nat} {item : ι} (ha : (run (start calls) turns).log = a ++ .returned t id item :: b) :
    (∃ v p, .exported id v p item ∈ a) ∧ ∃ md, .merged t id md ∈ a :=
  (run_inv (inv_start hm) turns).returned a t id item b ha

/-- C54, partial: if no export has failed, then nobody waits for nothing: when the queue has been worked off, every
thread that waits for its export can go on. -/
theorem C54_served_partial {calls : Nat → List Call} (hm : MainOnly calls) (turns : List (Nat × Outcome ι))
    (hr : Resting (run (start (ι := ι) calls) turns)) (hf : ∀ id, .failed id ∉ (run (start (ι := ι) calls) turns).log)
    {t id : Nat} {c : Call} (hw : ((run (start (ι := ι) calls) turns).threads t).cur = some (c, .wait id)) :
    ((run (start (ι := ι) calls) turns).events id).isSome := by
  have h := run_inv (inv_start hm) turns (ι := ι)
  have h1 := (h.places t c _ hw).1
  rw [← (C54_order hm turns).2.2 hr] at h1
  obtain ⟨e, he, hid⟩ := List.mem_filterMap.mp h1
  cases e with
  | exported id' v p item =>
    simp only [Option.some.injEq] at hid
    subst hid
    exact h.eventSet _ v p item he
  | failed id' =>
    simp only [Option.some.injEq] at hid
    subst hid
    exact absurd he (hf _)
  | _ => cases hid

/-- C54 as claimed: when the queue has been worked off, every thread that waits for its export can go on. -/
def C54_claim : Prop :=
  ∀ (calls : Nat → List Call) (turns : List (Nat × Outcome Nat)), MainOnly calls → Resting (run (start calls) turns) →
    ∀ t id c, ((run (start calls) turns).threads t).cur = some (c, .wait id) →
      ((run (start calls) turns).events id).isSome

def lostCalls : Nat → List Call
  | 0 => [.process]
  | 1 => [.exportThreadsafe []]
  | _ => []

/-- A thread asks for an export; the main thread processes it and the export raises. -/
def lostTurns : List (Nat × Outcome Nat) :=
  [(1, .ok 0), (1, .ok 0), (1, .ok 0), (0, .ok 0), (0, .ok 0), (0, .ok 0), (0, .early .osError), (0, .ok 0)]

theorem lost_main : MainOnly lostCalls := by
  intro t ht c hc
  match t, hc with
  | 0, _ => exact absurd rfl ht
  | 1, hc =>
    simp only [lostCalls, List.mem_singleton] at hc
    exact Or.inr ⟨[], hc⟩
  | t + 2, hc => simp [lostCalls] at hc

/-- When an export fails, the thread that asked for it waits for ever. -/
theorem C54_false : ¬ C54_claim := by
  intro h
  have hrest : Resting (run (start lostCalls) lostTurns) := by
    refine ⟨by rfl, fun c r own hc => ?_⟩
    have : ((run (start (ι := Nat) lostCalls) lostTurns).threads 0).cur = none := rfl
    rw [this] at hc
    cases hc
  have := h lostCalls lostTurns lost_main hrest 1 0 (.exportThreadsafe []) rfl
  exact absurd this (by decide +kernel)

section Demo

def demoCalls : Nat → List Call
  | 0 => [.addMetadata (.str "run") (.str "r1"), .exportSync [(.str "who", .str "main")], .process]
  | 1 => [.exportThreadsafe [(.str "run", .str "mine"), (.str "n", .other (.ok "3"))]]
  | _ => []

/-- The thread asks first; `export` of the main thread does both. -/
def demoState : State String :=
  run (start demoCalls) ([0, 0, 0, 1, 1, 1, 0, 0, 0].map (fun t => (t, .ok "")) ++
    [(0, .ok ""), (0, .ok "A"), (0, .ok ""), (0, .ok "B"), (0, .ok ""), (0, .ok ""), (1, .ok "")])

def showEv : Ev String → Option (Nat × Nat × Dict String String × String)
  | .exported id v p i => some (id, v, p, i)
  | .returned t id i => some (t, id, [], i)
  | _ => none

example : demoState.log.filterMap showEv =
    [(0, 0, [("run", "mine"), ("n", "3")], "A"), (1, 1, [("run", "r1"), ("who", "main")], "B"), (0, 1, [], "B"), (1, 0, [], "A")] := by
  decide +kernel

example : puts demoState.log = [0, 1] ∧ processed demoState.log = [0, 1] := by decide +kernel

example : versions demoState.log = List.range 2 := by decide +kernel

end Demo

end Onnx

end Verif
