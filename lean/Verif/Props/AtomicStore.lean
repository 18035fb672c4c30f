import Verif.Model.AtomicStore
import Verif.Props.Serialize

/-!
# C23: exports are never half written
-/

namespace Verif.Props

open Verif

variable {B : Type}

/-- A disk on which nothing is in flight, and file numbers are used in order. -/
structure Quiet (d : Disk B) : Prop where
  pending : d.pending = []
  synced : ∀ p i, d.dir p = some i → (d.files i).2 = true
  fresh : ∀ p i, d.dir p = some i → i < d.next

/-- The state while the temporary file is written: everything but the temporary name is as before. -/
structure Writing (tmp : String) (d0 d : Disk B) : Prop where
  next : d.next = d0.next + 1
  dir : d.dir = fun q => if q = tmp then some d0.next else d0.dir q
  files : ∀ i, i ≠ d0.next → d.files i = d0.files i
  pending : d.pending = [d0.dir]

theorem runAll_append (a b : List (Eff B)) (s : Disk B × List B) :
    Eff.runAll (a ++ b) s = Eff.runAll b (Eff.runAll a s) := by
  simp [Eff.runAll]

theorem writes_run (chunks : List (List B)) (d : Disk B) (buf : List B) :
    Eff.runAll (chunks.map .write) (d, buf) = (d, buf ++ chunks.flatten) := by
  induction chunks generalizing buf with
  | nil => simp [Eff.runAll]
  | cons c cs ih =>
    have := ih (buf ++ c)
    simp only [Eff.runAll, List.map_cons, List.foldl_cons, Eff.run, List.flatten_cons] at this ⊢
    rw [this, List.append_assoc]

theorem create_writing (tmp : String) {d : Disk B} (hq : Quiet d) (buf : List B) :
    Writing tmp d (Eff.run (.create tmp) (d, buf)).1 := by
  refine ⟨rfl, rfl, ?_, ?_⟩
  · intro i hi; simp [Eff.run, hi]
  · simp [Eff.run, hq.pending]

theorem writing_crash {tmp target : String} (hne : tmp ≠ target) {d0 d d' : Disk B} (hq : Quiet d0)
    (hw : Writing tmp d0 d) {c : Crash} (hc : AfterCrash c d d') :
    d'.read target = d0.read target := by
  cases c with
  | killed =>
    simp only [AfterCrash] at hc; subst hc
    simp only [Disk.read, hw.dir, if_neg (Ne.symm hne)]
    cases hd : d0.dir target with
    | none => rfl
    | some i =>
      have := hq.fresh _ _ hd
      simp [hw.files i (by omega)]
  | powerLoss =>
    obtain ⟨_, _, h1, _, h2⟩ := hc
    have hdir : d'.dir target = d0.dir target := by
      rcases h1 with h | h
      · rw [h, hw.dir]; simp [Ne.symm hne]
      · rw [hw.pending] at h; simp only [List.mem_singleton] at h; rw [h]
    simp only [Disk.read, hdir]
    cases hd : d0.dir target with
    | none => rfl
    | some i =>
      have hf := hw.files i (by have := hq.fresh _ _ hd; omega)
      simp [h2 i (by rw [hf]; exact hq.synced _ _ hd), hf]

/-- A condition holds at every point of an execution. -/
def Always (P : Disk B × List B → Prop) : List (Eff B) → Disk B × List B → Prop
  | [], s => P s
  | e :: es, s => P s ∧ Always P es (e.run s)

theorem Always.prefix {P : Disk B × List B → Prop} {effs : List (Eff B)} {s : Disk B × List B}
    (h : Always P effs s) {pre : List (Eff B)} (hp : pre <+: effs) : P (Eff.runAll pre s) := by
  induction effs generalizing s pre with
  | nil => rw [List.prefix_nil.1 hp]; exact h
  | cons e es ih =>
    cases pre with
    | nil => exact h.1
    | cons e' pre =>
      obtain ⟨rfl, hp'⟩ := List.cons_prefix_cons.1 hp
      exact ih h.2 hp'

theorem always_writes {P : Disk B × List B → Prop} {d : Disk B} (h : ∀ buf, P (d, buf)) {rest : List (Eff B)}
    (chunks : List (List B)) (buf : List B) (hr : Always P rest (d, buf ++ chunks.flatten)) :
    Always P (chunks.map .write ++ rest) (d, buf) := by
  induction chunks generalizing buf with
  | nil => simpa using hr
  | cons c cs ih => exact ⟨h buf, ih (buf ++ c) (by simpa using hr)⟩

/-- The state once the temporary file has been renamed: on disk is the directory before the store, while it was
written, or the new one. -/
structure Renamed (tmp target : String) (full : List B) (d0 d : Disk B) : Prop where
  next : d.next = d0.next + 1
  dir : d.dir = fun q => if q = target then some d0.next else if q = tmp then none else d0.dir q
  files : ∀ i, i ≠ d0.next → d.files i = d0.files i
  new : d.files d0.next = (full, true)
  pending : ∀ x ∈ d.pending, x target = d0.dir target

theorem renamed_crash {tmp target : String} {full : List B} {d0 d d' : Disk B}
    (hq : Quiet d0) (hw : Renamed tmp target full d0 d) {c : Crash} (hc : AfterCrash c d d') :
    d'.read target = d0.read target ∨ d'.read target = some full := by
  cases c with
  | killed =>
    simp only [AfterCrash] at hc; subst hc
    right
    simp [Disk.read, hw.dir, hw.new]
  | powerLoss =>
    obtain ⟨_, _, h1, _, h2⟩ := hc
    rcases h1 with h | h
    · right
      simp [Disk.read, h, hw.dir, h2 d0.next (by rw [hw.new]), hw.new]
    · left
      simp only [Disk.read, hw.pending _ h]
      cases hd : d0.dir target with
      | none => rfl
      | some i =>
        have hf := hw.files i (by have := hq.fresh _ _ hd; omega)
        simp [h2 i (by rw [hf]; exact hq.synced _ _ hd), hf]

/-- The states of a successful store. -/
theorem storeOk_states {tmp target : String} (hne : tmp ≠ target) (chunks : List (List B))
    {d0 : Disk B} (hq : Quiet d0) (buf : List B) (P : Disk B × List B → Prop)
    (h0 : ∀ buf, P (d0, buf)) (hw : ∀ d buf, Writing tmp d0 d → P (d, buf))
    (hr : ∀ d buf, Renamed tmp target chunks.flatten d0 d → P (d, buf)) :
    Always P (storeOk tmp target chunks) (d0, buf) ∧
    ∃ d b, Eff.runAll (storeOk tmp target chunks) (d0, buf) = (d, b) ∧
      Renamed tmp target chunks.flatten d0 d ∧ d.pending = [] := by
  have hc := create_writing tmp hq buf
  generalize hd1 : (Eff.run (.create tmp) (d0, buf)).1 = d1 at hc
  have hrun1 : Eff.run (.create tmp) (d0, buf) = (d1, []) := by rw [← hd1]; rfl
  have hnew1 : d1.files d0.next = ([], false) := by rw [← hd1]; simp [Eff.run]
  have hdt : d1.dir tmp = some d0.next := by rw [hc.dir]; simp
  -- flush
  let d2 : Disk B := { d1 with
    files := fun j => if j = d0.next then ((d1.files d0.next).1 ++ chunks.flatten, false) else d1.files j }
  have hrun2 : Eff.run (.flush tmp) (d1, chunks.flatten) = (d2, []) := by simp only [Eff.run, hdt, d2]
  have hw2 : Writing tmp d0 d2 :=
    ⟨hc.next, hc.dir, fun i hi => by simp only [d2, if_neg hi]; exact hc.files i hi, hc.pending⟩
  -- fsync
  let d3 : Disk B := { d2 with
    files := fun j => if j = d0.next then ((d2.files d0.next).1, true) else d2.files j }
  have hrun3 : Eff.run (.fsync tmp) (d2, []) = (d3, []) := by
    have : d2.dir tmp = some d0.next := hdt
    simp only [Eff.run, this, d3]
  have hw3 : Writing tmp d0 d3 :=
    ⟨hc.next, hc.dir, fun i hi => by simp only [d3, if_neg hi]; exact hw2.files i hi, hc.pending⟩
  have hnew3 : d3.files d0.next = (chunks.flatten, true) := by simp [d3, d2, hnew1]
  -- rename
  let d4 : Disk B := { d3 with
    dir := fun r => if r = target then some d0.next else if r = tmp then none else d3.dir r
    pending := d3.dir :: d3.pending }
  have hrun4 : Eff.run (.rename tmp target) (d3, []) = (d4, []) := by
    have : d3.dir tmp = some d0.next := hdt
    simp only [Eff.run, this, d4]
  have hw4 : Renamed tmp target chunks.flatten d0 d4 := by
    refine ⟨hc.next, ?_, hw3.files, hnew3, ?_⟩
    · funext q
      simp only [d4, hw3.dir]
      by_cases h1 : q = target
      · simp [h1]
      · by_cases h2 : q = tmp <;> simp [h1, h2]
    · intro x hx
      simp only [d4, List.mem_cons] at hx
      rcases hx with rfl | hx
      · rw [hw3.dir]; simp [Ne.symm hne]
      · rw [hw3.pending] at hx; simp only [List.mem_singleton] at hx; rw [hx]
  -- directory sync
  let d5 : Disk B := { d4 with pending := [] }
  have hw5 : Renamed tmp target chunks.flatten d0 d5 :=
    ⟨hw4.next, hw4.dir, hw4.files, hw4.new, by simp [d5]⟩
  constructor
  · refine ⟨h0 buf, ?_⟩
    rw [hrun1]
    refine always_writes (fun b => hw d1 b hc) chunks [] ?_
    simp only [List.nil_append]
    refine ⟨hw d1 _ hc, ?_⟩
    rw [hrun2]
    refine ⟨hw d2 _ hw2, ?_⟩
    rw [hrun3]
    refine ⟨hw d3 _ hw3, ?_⟩
    rw [hrun4]
    exact ⟨hr d4 _ hw4, hr d5 _ hw5, hr d5 _ hw5⟩
  · refine ⟨d5, [], ?_, hw5, rfl⟩
    unfold storeOk
    rw [runAll_append, runAll_append]
    have : Eff.runAll [.create tmp] (d0, buf) = (d1, []) := hrun1
    rw [this, writes_run, List.nil_append]
    simp only [Eff.runAll, List.foldl_cons, List.foldl_nil]
    rw [hrun2, hrun3, hrun4]; rfl

/-- The states of a failing store. -/
theorem storeFail_states {tmp : String} (chunks : List (List B)) {d0 : Disk B} (hq : Quiet d0)
    (htmp : d0.dir tmp = none) (buf : List B) (P : Disk B × List B → Prop)
    (h0 : ∀ buf, P (d0, buf)) (hw : ∀ d buf, Writing tmp d0 d → P (d, buf))
    (hr : ∀ d buf, (∀ i, i ≠ d0.next → d.files i = d0.files i) → d.dir = d0.dir →
      (∀ x ∈ d.pending, ∀ q, q ≠ tmp → x q = d0.dir q) → P (d, buf)) :
    Always P (storeFail tmp chunks) (d0, buf) ∧
    (Eff.runAll (storeFail tmp chunks) (d0, buf)).1.dir = d0.dir := by
  have hc := create_writing tmp hq buf
  generalize hd1 : (Eff.run (.create tmp) (d0, buf)).1 = d1 at hc
  have hrun1 : Eff.run (.create tmp) (d0, buf) = (d1, []) := by rw [← hd1]; rfl
  have hdt : d1.dir tmp = some d0.next := by rw [hc.dir]; simp
  let d2 : Disk B := { d1 with
    files := fun j => if j = d0.next then ((d1.files d0.next).1 ++ chunks.flatten, false) else d1.files j }
  have hrun2 : Eff.run (.flush tmp) (d1, chunks.flatten) = (d2, []) := by simp only [Eff.run, hdt, d2]
  have hw2 : Writing tmp d0 d2 :=
    ⟨hc.next, hc.dir, fun i hi => by simp only [d2, if_neg hi]; exact hc.files i hi, hc.pending⟩
  have hdir3 : (Eff.run (.unlink tmp) (d2, [])).1.dir = d0.dir := by
    funext q
    show (if q = tmp then none else d2.dir q) = _
    rw [hw2.dir]
    by_cases h : q = tmp
    · simp [h, htmp]
    · simp [h]
  constructor
  · refine ⟨h0 buf, ?_⟩
    rw [hrun1]
    refine always_writes (fun b => hw d1 b hc) chunks [] ?_
    simp only [List.nil_append]
    refine ⟨hw d1 _ hc, ?_⟩
    rw [hrun2]
    refine ⟨hw d2 _ hw2, ?_⟩
    refine hr _ _ hw2.files hdir3 ?_
    intro x hx q hqt
    simp only [List.mem_cons] at hx
    rcases hx with rfl | hx
    · rw [hw2.dir]; simp [hqt]
    · rw [hw2.pending] at hx; simp only [List.mem_singleton] at hx; rw [hx]
  · unfold storeFail
    rw [runAll_append, runAll_append]
    have : Eff.runAll [.create tmp] (d0, buf) = (d1, []) := hrun1
    rw [this, writes_run, List.nil_append]
    simp only [Eff.runAll, List.foldl_cons, List.foldl_nil]
    rw [hrun2]; exact hdir3

/-- A path that is neither the temporary name nor the target. -/
theorem other_crash {p : String} {d0 d d' : Disk B} (hq : Quiet d0) (hdir : d.dir p = d0.dir p)
    (hp : ∀ x ∈ d.pending, x p = d0.dir p) (hf : ∀ i, i ≠ d0.next → d.files i = d0.files i)
    {c : Crash} (hc : AfterCrash c d d') : d'.read p = d0.read p := by
  cases c with
  | killed =>
    simp only [AfterCrash] at hc; subst hc
    simp only [Disk.read, hdir]
    cases hd : d0.dir p with
    | none => rfl
    | some i =>
      have := hq.fresh _ _ hd
      simp [hf i (by omega)]
  | powerLoss =>
    obtain ⟨_, _, h1, _, h2⟩ := hc
    have hdir' : d'.dir p = d0.dir p := by
      rcases h1 with h | h
      · rw [h, hdir]
      · exact hp _ h
    simp only [Disk.read, hdir']
    cases hd : d0.dir p with
    | none => rfl
    | some i =>
      have hfi := hf i (by have := hq.fresh _ _ hd; omega)
      simp [h2 i (by rw [hfi]; exact hq.synced _ _ hd), hfi]

/-- C23: if the process is killed or the power fails at any point of `store(path)`, whether that would have
succeeded or raised, the file holds the complete previous export (or is missing, as before) or the complete
new one. -/
theorem C23_never_half_written {V : Type u} (pieces : Archive V → List (List B)) (started : List (List B))
    (t : Table V) {tmp path : String} (hne : tmp ≠ path ++ ".zip") {d0 : Disk B} (hq : Quiet d0)
    (htmp : d0.dir tmp = none) (buf : List B) {pre : List (Eff B)}
    (hpre : pre <+: storeEffects pieces started tmp path t) {c : Crash} {d' : Disk B}
    (hc : AfterCrash c (Eff.runAll pre (d0, buf)).1 d') :
    d'.read (path ++ ".zip") = d0.read (path ++ ".zip") ∨
    ∃ a, t.serialize = .ok a ∧ d'.read (path ++ ".zip") = some (pieces a).flatten := by
  unfold storeEffects at hpre
  cases hs : t.serialize with
  | ok a =>
    rw [hs] at hpre
    have := (storeOk_states hne (pieces a) hq buf
      (fun s => ∀ c d', AfterCrash c s.1 d' → d'.read (path ++ ".zip") = d0.read (path ++ ".zip") ∨
        d'.read (path ++ ".zip") = some (pieces a).flatten)
      (fun b c d' h => Or.inl (other_crash hq rfl (by simp [hq.pending]) (fun _ _ => rfl) h))
      (fun d b hw c d' h => Or.inl (writing_crash hne hq hw h))
      (fun d b hw c d' h => renamed_crash hq hw h)).1.prefix hpre c d' hc
    rcases this with h | h
    · exact Or.inl h
    · exact Or.inr ⟨a, rfl, h⟩
  | error e =>
    rw [hs] at hpre
    left
    exact (storeFail_states started hq htmp buf
      (fun s => ∀ c d', AfterCrash c s.1 d' → d'.read (path ++ ".zip") = d0.read (path ++ ".zip"))
      (fun b c d' h => other_crash hq rfl (by simp [hq.pending]) (fun _ _ => rfl) h)
      (fun d b hw c d' h => writing_crash hne hq hw h)
      (fun d b h1 h2 h3 c d' h => other_crash hq (by rw [h2]) (fun x hx => h3 x hx _ (Ne.symm hne)) h1 h)).1.prefix
      hpre c d' hc

/-- C23: no other file is touched, wherever the process stops. -/
theorem C23_other_files_untouched {V : Type u} (pieces : Archive V → List (List B)) (started : List (List B))
    (t : Table V) {tmp path other : String} (hne : tmp ≠ path ++ ".zip") (ho : other ≠ path ++ ".zip")
    (hot : other ≠ tmp) {d0 : Disk B} (hq : Quiet d0)
    (htmp : d0.dir tmp = none) (buf : List B) {pre : List (Eff B)}
    (hpre : pre <+: storeEffects pieces started tmp path t) {c : Crash} {d' : Disk B}
    (hc : AfterCrash c (Eff.runAll pre (d0, buf)).1 d') :
    d'.read other = d0.read other := by
  unfold storeEffects at hpre
  cases hs : t.serialize with
  | ok a =>
    rw [hs] at hpre
    -- the renaming also leaves the other name alone in the pending directories
    have key : ∀ pre, pre <+: storeOk tmp (path ++ ".zip") (pieces a) →
        let s := Eff.runAll pre (d0, buf)
        s.1.dir other = d0.dir other ∧ (∀ x ∈ s.1.pending, x other = d0.dir other) := by
      have : Always (fun s => s.1.dir other = d0.dir other ∧ (∀ x ∈ s.1.pending, x other = d0.dir other))
          (storeOk tmp (path ++ ".zip") (pieces a)) (d0, buf) := by
        have step : ∀ (effs : List (Eff B)) (s : Disk B × List B),
            (∀ e ∈ effs, match e with
              | .create p => p ≠ other
              | .rename p q => p ≠ other ∧ q ≠ other
              | .unlink p => p ≠ other
              | _ => True) →
            (s.1.dir other = d0.dir other ∧ (∀ x ∈ s.1.pending, x other = d0.dir other)) →
            Always (fun s => s.1.dir other = d0.dir other ∧ (∀ x ∈ s.1.pending, x other = d0.dir other))
              effs s := by
          intro effs
          induction effs with
          | nil => intro s _ h; exact h
          | cons e es ih =>
            intro s he h
            refine ⟨h, ih _ (fun e h => he e (by simp [h])) ?_⟩
            obtain ⟨d, b⟩ := s
            have hee := he e (by simp)
            cases e with
            | create p =>
              simp only at hee
              simp only [Eff.run, List.mem_cons]
              exact ⟨by rw [if_neg (Ne.symm hee)]; exact h.1,
                by rintro x (rfl | hx); exact h.1; exact h.2 x hx⟩
            | write bs => exact h
            | flush p => simp only [Eff.run]; split <;> exact h
            | fsync p => simp only [Eff.run]; split <;> exact h
            | rename p q =>
              simp only at hee
              simp only [Eff.run]
              split
              · exact h
              · refine ⟨by simp only [if_neg (Ne.symm hee.1), if_neg (Ne.symm hee.2)]; exact h.1, ?_⟩
                simp only [List.mem_cons]
                rintro x (rfl | hx)
                · exact h.1
                · exact h.2 x hx
            | syncDir => exact ⟨h.1, by simp [Eff.run]⟩
            | unlink p =>
              simp only at hee
              simp only [Eff.run, List.mem_cons]
              exact ⟨by rw [if_neg (Ne.symm hee)]; exact h.1,
                by rintro x (rfl | hx); exact h.1; exact h.2 x hx⟩
            | chmod p => exact h
        refine step _ _ ?_ ⟨rfl, by simp [hq.pending]⟩
        intro e he
        simp only [storeOk, List.mem_append, List.mem_cons, List.mem_map, List.not_mem_nil, or_false] at he
        rcases he with (rfl | ⟨c, _, rfl⟩) | rfl | rfl | rfl | rfl | rfl
        · exact Ne.symm hot
        · trivial
        · trivial
        · trivial
        · exact ⟨Ne.symm hot, Ne.symm ho⟩
        · trivial
        · trivial
      intro pre hp
      exact this.prefix hp
    have hfiles := (storeOk_states hne (pieces a) hq buf
      (fun s => ∀ i, i ≠ d0.next → s.1.files i = d0.files i)
      (fun b i _ => rfl) (fun d b hw => hw.files) (fun d b hw => hw.files)).1.prefix hpre
    exact other_crash hq (key pre hpre).1 (key pre hpre).2 hfiles hc
  | error e =>
    rw [hs] at hpre
    exact (storeFail_states started hq htmp buf
      (fun s => ∀ c d', AfterCrash c s.1 d' → d'.read other = d0.read other)
      (fun b c d' h => other_crash hq rfl (by simp [hq.pending]) (fun _ _ => rfl) h)
      (fun d b hw c d' h => other_crash hq (by rw [hw.dir]; simp [hot])
        (by rw [hw.pending]; simp) hw.files h)
      (fun d b h1 h2 h3 c d' h => other_crash hq (by rw [h2]) (fun x hx => h3 x hx _ hot) h1 h)).1.prefix
      hpre c d' hc

/-- C23: a `store` that returned is durable, and leaves no temporary file. -/
theorem C23_complete_is_durable {V : Type u} (pieces : Archive V → List (List B)) (started : List (List B))
    {t : Table V} {a : Archive V} (hs : t.serialize = .ok a) {tmp path : String} (hne : tmp ≠ path ++ ".zip")
    {d0 : Disk B} (hq : Quiet d0) (buf : List B) {c : Crash} {d' : Disk B}
    (hc : AfterCrash c (Eff.runAll (storeEffects pieces started tmp path t) (d0, buf)).1 d') :
    d'.read (path ++ ".zip") = some (pieces a).flatten ∧ d'.read tmp = none := by
  unfold storeEffects at hc
  rw [hs] at hc
  obtain ⟨d, b, h1, h2, h3⟩ := (storeOk_states hne (pieces a) hq buf (fun _ => True)
    (fun _ => trivial) (fun _ _ _ => trivial) (fun _ _ _ => trivial)).2
  simp only [h1] at hc
  cases c with
  | killed =>
    simp only [AfterCrash] at hc; subst hc
    exact ⟨by simp [Disk.read, h2.dir, h2.new], by simp [Disk.read, h2.dir, hne]⟩
  | powerLoss =>
    obtain ⟨_, _, k1, _, k2⟩ := hc
    rw [h3] at k1
    simp only [List.not_mem_nil, or_false] at k1
    exact ⟨by simp [Disk.read, k1, h2.dir, k2 d0.next (by rw [h2.new]), h2.new],
      by simp [Disk.read, k1, h2.dir, hne]⟩

/-- C23: a `store` that raised leaves no trace in the directory. -/
theorem C23_failed_leaves_nothing {V : Type u} (pieces : Archive V → List (List B)) (started : List (List B))
    {t : Table V} {e : Err} (hs : t.serialize = .error e) {tmp path : String}
    {d0 : Disk B} (hq : Quiet d0) (htmp : d0.dir tmp = none) (buf : List B) :
    (Eff.runAll (storeEffects pieces started tmp path t) (d0, buf)).1.dir = d0.dir := by
  unfold storeEffects
  rw [hs]
  exact (storeFail_states started hq htmp buf (fun _ => True) (fun _ => trivial) (fun _ _ _ => trivial)
    (fun _ _ _ _ _ => trivial)).2

namespace ExD

/-- a disk with an export `old` -/
def d0 : Disk Nat := ⟨fun p => if p = "a.zip" then some 0 else none, fun _ => ([7, 7], true), [], 1⟩
theorem quiet : Quiet d0 := by
  refine ⟨rfl, fun _ _ _ => rfl, ?_⟩
  intro p i h
  simp only [d0] at h
  split at h
  · injection h with h; subst h; decide
  · simp at h

def pieces (a : Archive Nat) : List (List Nat) := [[1], a.rows.values.flatten, [2]]

end ExD

example : (Eff.runAll (storeOk "tmp" "a.zip" [[1], [2, 3]]) (ExD.d0, [])).1.read "a.zip" = some [1, 2, 3] ∧
    (Eff.runAll ((storeOk "tmp" "a.zip" [[1], [2, 3]]).take 5) (ExD.d0, [])).1.read "a.zip" = some [7, 7] := by
  decide +kernel
example := C23_never_half_written ExD.pieces [[1]] Ex.t3 (tmp := "tmp") (path := "a") (by decide) ExD.quiet
  (by decide) [] (List.take_prefix 4 _) (c := .killed) rfl
example := C23_other_files_untouched ExD.pieces [[1]] Ex.t3 (tmp := "tmp") (path := "a") (other := "b") (by decide)
  (by decide) (by decide) ExD.quiet (by decide) [] (List.take_prefix 4 _) (c := .killed) rfl
example := C23_complete_is_durable ExD.pieces [[1]] ExS.stores (tmp := "tmp") (path := "a") (by decide) ExD.quiet
  [] (c := .killed) rfl
example := C23_failed_leaves_nothing ExD.pieces [[1]] (t := Ex.t0) (e := .valueError) (by decide +kernel)
  (tmp := "tmp") (path := "a") ExD.quiet (by decide) []

end Verif.Props
