import Verif.Model.CkptWrite
import Verif.Props.Checkpoint

/-!
# C153: a crash while checkpoints are written
-/

namespace Verif

namespace CkptWrite

variable {B : Type} {W : Type u} {S : Type v} {V : Type w}

/-! ## Specification -/

namespace Spec

/-- A file format: what was written completely is read, and any other beginning of it is refused (the directory of a zip file is at
its end). -/
structure Format (pieces : CkptFile S V → List (List B)) (load : List B → Option (CkptFile S V)) : Prop where
  reads : ∀ f, load (pieces f).flatten = some f
  refuses : ∀ f bytes, bytes <+: (pieces f).flatten → bytes ≠ (pieces f).flatten → load bytes = none

/-- A disk at rest: everything is synced, and no file has two names. -/
structure AtRest (d : Disk B) : Prop where
  pending : d.pending = []
  synced : ∀ p i, d.dir p = some i → (d.files i).2 = true
  fresh : ∀ p i, d.dir p = some i → i < d.next
  single : ∀ p q i, d.dir p = some i → d.dir q = some i → p = q

/-- Everything that a run does to the disk, for what happens in it. -/
def written [PyNum V] [PyStr V] (pieces : CkptFile S V → List (List B)) (c : Saver W S) (w : W) : List (CkEvent W V) → List (Act B)
  | [] => []
  | .change f :: es => written pieces c (f w) es
  | .save a b :: es => (endCycleActs pieces c a b w).2 ++ written pieces (endCycleActs pieces c a b w).1 w es

end Spec

open Spec

/-! ## The disk -/

/-- No file has two names. -/
structure Single (d : Disk B) : Prop where
  fresh : ∀ p i, d.dir p = some i → i < d.next
  single : ∀ p q i, d.dir p = some i → d.dir q = some i → p = q

/-- The path is as it was at first, on disk too. -/
structure Keeps (p : String) (d0 d : Disk B) : Prop where
  dir : d.dir p = d0.dir p
  pending : ∀ x ∈ d.pending, x p = d0.dir p
  files : ∀ i, d0.dir p = some i → d.files i = d0.files i

/-- The path an act is about. -/
def Act.path : Act B → String
  | .openW p => p
  | .append p _ => p

theorem open_new {p : String} {d : Disk B} (h : d.dir p = none) : (Act.openW p).run d =
    ⟨fun q => if q = p then some d.next else d.dir q, fun i => if i = d.next then ([], false) else d.files i, d.dir :: d.pending,
      d.next + 1⟩ := by
  simp only [Act.run, h]

theorem open_old {p : String} {d : Disk B} {i : Nat} (h : d.dir p = some i) : (Act.openW p).run d =
    ⟨d.dir, fun j => if j = i then ([], false) else d.files j, d.pending, d.next⟩ := by
  simp only [Act.run, h]

theorem append_new {p : String} {d : Disk B} (h : d.dir p = none) (bs : List B) : (Act.append p bs).run d = d := by
  simp only [Act.run, h]

theorem append_old {p : String} {d : Disk B} {i : Nat} (h : d.dir p = some i) (bs : List B) : (Act.append p bs).run d =
    ⟨d.dir, fun j => if j = i then ((d.files i).1 ++ bs, false) else d.files j, d.pending, d.next⟩ := by
  simp only [Act.run, h]

theorem Single.run {d : Disk B} (h : Single d) (a : Act B) : Single (a.run d) := by
  cases a with
  | openW p =>
    cases hp : d.dir p with
    | some i => rw [open_old hp]; exact ⟨h.fresh, h.single⟩
    | none =>
      rw [open_new hp]
      constructor
      · intro q i hq
        simp only at hq ⊢
        split at hq
        · simp only [Option.some.injEq] at hq; omega
        · have := h.fresh q i hq; omega
      · intro q r i hq hr
        simp only at hq hr
        split at hq <;> split at hr
        · subst_vars; rfl
        · simp only [Option.some.injEq] at hq; have := h.fresh _ _ hr; omega
        · simp only [Option.some.injEq] at hr; have := h.fresh _ _ hq; omega
        · exact h.single _ _ _ hq hr
  | append p bs =>
    cases hp : d.dir p with
    | some i => rw [append_old hp]; exact ⟨h.fresh, h.single⟩
    | none => rw [append_new hp]; exact h

theorem Keeps.run {p : String} {d0 d : Disk B} (hs : Single d) (h : Keeps p d0 d) {a : Act B} (ha : a.path ≠ p) :
    Keeps p d0 (a.run d) := by
  cases a with
  | openW q =>
    have ha : q ≠ p := ha
    cases hq : d.dir q with
    | none =>
      rw [open_new hq]
      refine ⟨?_, ?_, fun i hi => ?_⟩
      · simp only [if_neg (Ne.symm ha)]; exact h.dir
      · intro x hx
        simp only [List.mem_cons] at hx
        rcases hx with rfl | hx
        · exact h.dir
        · exact h.pending x hx
      · have := hs.fresh p i (by rw [h.dir, hi])
        simp only [if_neg (show i ≠ d.next by omega)]
        exact h.files i hi
    | some j =>
      rw [open_old hq]
      refine ⟨h.dir, h.pending, fun i hi => ?_⟩
      have hne : i ≠ j := fun e => ha (hs.single q p j hq (by rw [h.dir, hi, e]))
      simp only [if_neg hne]
      exact h.files i hi
  | append q bs =>
    have ha : q ≠ p := ha
    cases hq : d.dir q with
    | none => rw [append_new hq]; exact h
    | some j =>
      rw [append_old hq]
      refine ⟨h.dir, h.pending, fun i hi => ?_⟩
      have hne : i ≠ j := fun e => ha (hs.single q p j hq (by rw [h.dir, hi, e]))
      simp only [if_neg hne]
      exact h.files i hi

theorem runActs_append (a b : List (Act B)) (d : Disk B) : runActs (a ++ b) d = runActs b (runActs a d) := by
  simp [runActs]

theorem Single.runs {d : Disk B} (h : Single d) (as : List (Act B)) : Single (runActs as d) := by
  induction as generalizing d with
  | nil => exact h
  | cons a as ih => exact ih (h.run a)

theorem Keeps.runs {p : String} {d0 d : Disk B} (hs : Single d) (h : Keeps p d0 d) {as : List (Act B)}
    (ha : ∀ a ∈ as, a.path ≠ p) : Keeps p d0 (runActs as d) := by
  induction as generalizing d with
  | nil => exact h
  | cons a as ih => exact ih (hs.run a) (h.run hs (ha a (by simp))) fun b hb => ha b (by simp [hb])

theorem Keeps.read {p : String} {d0 d : Disk B} (h : Keeps p d0 d) : d.read p = d0.read p := by
  unfold Disk.read
  rw [h.dir]
  cases hd : d0.dir p with
  | none => rfl
  | some i => simp [h.files i hd]

theorem keeps_self {p : String} {d : Disk B} (h : ∀ x ∈ d.pending, x p = d.dir p) : Keeps p d d := ⟨rfl, h, fun _ _ => rfl⟩

/-- A path on which nothing happened is the same after any crash. -/
theorem Keeps.crash {p : String} {d0 d d' : Disk B} (hr : AtRest d0) (h : Keeps p d0 d) {c : Crash} (hc : AfterCrash c d d') :
    d'.read p = d0.read p := by
  cases c with
  | killed =>
    simp only [AfterCrash] at hc
    rw [hc]
    exact h.read
  | powerLoss =>
    obtain ⟨-, -, h1, -, h2⟩ := hc
    have hdir : d'.dir p = d0.dir p := by
      rcases h1 with e | e
      · rw [e, h.dir]
      · exact h.pending _ e
    unfold Disk.read
    rw [hdir]
    cases hd : d0.dir p with
    | none => rfl
    | some i => simp [h2 i (by rw [h.files i hd]; exact hr.synced p i hd), h.files i hd]

theorem read_keeps {p : String} {d : Disk B} (hs : Single d) {as : List (Act B)} (ha : ∀ a ∈ as, a.path ≠ p) :
    (runActs as d).read p = d.read p := by
  -- pending is of no interest for reading
  have h : Keeps p { d with pending := [] } { d with pending := [] } := keeps_self (by simp)
  have key : ∀ (as : List (Act B)) (d d' : Disk B), d.dir = d'.dir → d.files = d'.files → d.next = d'.next →
      (runActs as d).read p = (runActs as d').read p := by
    intro as
    induction as with
    | nil => intro d d' h1 h2 _; simp only [runActs, List.foldl_nil, Disk.read, h1, h2]
    | cons a as ih =>
      intro d d' h1 h2 h3
      refine ih _ _ ?_ ?_ ?_ <;> cases a with
      | openW q => simp only [Act.run, h1, h2, h3]; cases d'.dir q <;> simp_all
      | append q bs => simp only [Act.run, h1, h2, h3]; cases d'.dir q <;> simp_all
  have hs' : Single (⟨d.dir, d.files, [], d.next⟩ : Disk B) := ⟨hs.fresh, hs.single⟩
  have h' := (h.runs hs' ha).read
  rw [key as d ⟨d.dir, d.files, [], d.next⟩ rfl rfl rfl]
  exact h'

theorem files_beyond {as : List (Act B)} {d : Disk B} (hs : Single d) {i : Nat} (hi : (runActs as d).next ≤ i) :
    (runActs as d).files i = d.files i := by
  induction as generalizing d with
  | nil => rfl
  | cons a as ih =>
    have hmono : ∀ (as : List (Act B)) (d : Disk B), d.next ≤ (runActs as d).next := by
      intro as
      induction as with
      | nil => intro d; exact Nat.le_refl _
      | cons a as ih =>
        intro d
        refine Nat.le_trans ?_ (ih (a.run d))
        cases a with
        | openW q => cases hq : d.dir q with
          | none => rw [open_new hq]; exact Nat.le_succ _
          | some j => rw [open_old hq]
        | append q bs => cases hq : d.dir q with
          | none => rw [append_new hq]
          | some j => rw [append_old hq]
    have h1 : (a.run d).next ≤ i := Nat.le_trans (hmono as _) hi
    have h2 : (runActs (a :: as) d).files i = (a.run d).files i := ih (hs.run a) hi
    rw [h2]
    cases a with
    | openW q => cases hq : d.dir q with
      | none => rw [open_new hq] at h1 ⊢; simp only at h1 ⊢; rw [if_neg (by omega)]
      | some j =>
        have := hs.fresh q j hq
        rw [open_old hq] at h1 ⊢; simp only at h1 ⊢; rw [if_neg (by omega)]
    | append q bs => cases hq : d.dir q with
      | none => rw [append_new hq]
      | some j =>
        have := hs.fresh q j hq
        rw [append_old hq] at h1 ⊢; simp only at h1 ⊢; rw [if_neg (by omega)]

/-! ## One file -/

theorem open_read (p : String) (d : Disk B) : ((Act.openW p).run d).read p = some [] := by
  cases hp : d.dir p with
  | none => rw [open_new hp]; simp [Disk.read]
  | some i => rw [open_old hp]; simp [Disk.read, hp]

theorem append_read {p : String} {d : Disk B} {xs : List B} (h : d.read p = some xs) (bs : List B) :
    ((Act.append p bs).run d).read p = some (xs ++ bs) := by
  unfold Disk.read at h
  cases hp : d.dir p with
  | none => rw [hp] at h; simp at h
  | some i =>
    rw [hp] at h
    simp only [Option.map_some, Option.some.injEq] at h
    rw [append_old hp]
    simp [Disk.read, hp, h]

theorem appends_read {p : String} (pieces : List (List B)) {d : Disk B} {xs : List B} (h : d.read p = some xs) :
    (runActs (pieces.map (.append p)) d).read p = some (xs ++ pieces.flatten) := by
  induction pieces generalizing d xs with
  | nil => simpa [runActs] using h
  | cons b bs ih =>
    have := ih (append_read h b)
    simpa [runActs] using this

theorem save_read (p : String) (pieces : List (List B)) (d : Disk B) : (runActs (torchSave p pieces) d).read p = some pieces.flatten := by
  have := appends_read pieces (open_read p d)
  simpa [torchSave, runActs] using this

theorem torchSave_path {p : String} {pieces : List (List B)} {a : Act B} (h : a ∈ torchSave p pieces) : a.path = p := by
  simp only [torchSave, List.mem_cons, List.mem_map] at h
  rcases h with rfl | ⟨x, -, rfl⟩ <;> rfl

/-- Stopped while a file is written: nothing happened yet, or the file holds a beginning. -/
theorem save_prefix {p : String} {pieces : List (List B)} {stop : List (Act B)} (h : stop <+: torchSave p pieces) (d : Disk B) :
    stop = [] ∨ ∃ bytes, bytes <+: pieces.flatten ∧ (runActs stop d).read p = some bytes := by
  cases stop with
  | nil => exact Or.inl rfl
  | cons a stop =>
    right
    unfold torchSave at h
    obtain ⟨rfl, h'⟩ := List.cons_prefix_cons.1 h
    obtain ⟨rest, hr⟩ := h'
    obtain ⟨x, y, rfl, hx, -⟩ := List.map_eq_append_iff.1 hr.symm
    refine ⟨x.flatten, by simp, ?_⟩
    rw [← hx]
    exact save_read p x d

/-! ## A run -/

section

variable [PyNum V] [PyStr V] {pieces : CkptFile S V → List (List B)}

theorem endCycleActs_eq (c : Saver W S) (a b : V) (w : W) :
    endCycleActs pieces c a b w = ({ c with index := c.index + 1 },
      torchSave (checkpointPath c.folder c.index) (pieces (goodFile c.restorees c.folder c.index w a b))) := (rfl)

omit [PyNum V] [PyStr V] in
theorem saves_change (f : W → W) (es : List (CkEvent W V)) : saves (.change f :: es) = saves es := by
  simp [saves, CkEvent.isSave]

omit [PyNum V] [PyStr V] in
theorem saves_save (a b : V) (es : List (CkEvent W V)) : saves (.save a b :: es) = saves es + 1 :=
  List.countP_cons_of_pos rfl

/-- The paths that a run writes. -/
theorem acts_path {c : Saver W S} {w : W} {es : List (CkEvent W V)} {x : Act B} (h : x ∈ written pieces c w es) :
    ∃ k : Nat, k < saves es ∧ x.path = checkpointPath c.folder (c.index + k) := by
  induction es generalizing c w with
  | nil => simp [written] at h
  | cons e es ih =>
    cases e with
    | change f =>
      rw [saves_change]
      exact ih h
    | save a b =>
      rw [saves_save]
      simp only [written, endCycleActs_eq, List.mem_append] at h
      rcases h with h | h
      · exact ⟨0, by omega, by simpa using torchSave_path h⟩
      · obtain ⟨k, hk, e⟩ := ih h
        exact ⟨k + 1, by omega, by rw [e]; congr 1; push_cast; omega⟩

theorem acts_append (c : Saver W S) (w : W) (a b : List (CkEvent W V)) :
    written pieces c w (a ++ b) = written pieces c w a ++ written pieces { c with index := c.index + saves a } (worldAfter w a) b := by
  induction a generalizing c w with
  | nil => simp [written, saves, worldAfter]
  | cons e a ih =>
    cases e with
    | change f => rw [saves_change]; exact ih c (f w)
    | save x y =>
      have h1 : written pieces c w ((CkEvent.save x y :: a) ++ b) =
          (endCycleActs pieces c x y w).2 ++ written pieces (endCycleActs pieces c x y w).1 w (a ++ b) := rfl
      have h2 : written pieces c w (CkEvent.save x y :: a) =
          (endCycleActs pieces c x y w).2 ++ written pieces (endCycleActs pieces c x y w).1 w a := rfl
      have hi : (endCycleActs pieces c x y w).1.index + (saves a : Int) = c.index + ((saves a + 1 : Nat) : Int) := by
        rw [endCycleActs_eq]; push_cast; omega
      rw [h1, h2, saves_save, ih, List.append_assoc, hi]
      rfl

/-- Two beginnings of the same list. -/
theorem prefix_cases {α : Type} {stop a b : List α} (h : stop <+: a ++ b) : stop <+: a ∨ ∃ s, stop = a ++ s ∧ s <+: b := by
  rcases Nat.le_total stop.length a.length with hl | hl
  · exact Or.inl (List.prefix_of_prefix_length_le h (List.prefix_append a b) hl)
  · obtain ⟨s, rfl⟩ := List.prefix_of_prefix_length_le (List.prefix_append a b) h hl
    exact Or.inr ⟨s, rfl, (List.prefix_append_right_inj a).1 h⟩

/-- A finished checkpoint, however far the run went on. -/
theorem finished {c : Saver W S} {w : W} {d : Disk B} (hs : Single d) (a b : List (CkEvent W V)) (x y : V) {stop : List (Act B)}
    (h : stop <+: written pieces c w (a ++ .save x y :: b)) (hdone : written pieces c w (a ++ [.save x y]) <+: stop) :
    (runActs stop d).read (checkpointPath c.folder (c.index + saves a)) =
      some (pieces (goodFile c.restorees c.folder (c.index + saves a) (worldAfter w a) x y)).flatten := by
  obtain ⟨later, rfl⟩ := hdone
  have h' : later <+: written pieces { c with index := c.index + saves a + 1 } (worldAfter w a) b := by
    rw [acts_append, acts_append] at h
    simp only [written, endCycleActs_eq, List.append_nil, List.append_assoc] at h
    exact (List.prefix_append_right_inj _).1 ((List.prefix_append_right_inj _).1 h)
  rw [runActs_append, acts_append]
  simp only [written, endCycleActs_eq, List.append_nil]
  rw [read_keeps (hs.runs _), runActs_append, save_read]
  intro u hu he
  obtain ⟨k, -, e⟩ := acts_path (h'.subset hu)
  rw [e] at he
  have := checkpointPath_inj he
  simp only at this
  omega

/-- Where a run may have stopped. -/
theorem stopped (c : Saver W S) (w : W) (d : Disk B) (hs : Single d) (es : List (CkEvent W V)) {stop : List (Act B)}
    (h : stop <+: written pieces c w es) :
    ∃ a b : List (CkEvent W V), es = a ++ b ∧ ∃ s, stop = written pieces c w a ++ s ∧
      (s = [] ∨ ∃ x y b', b = .save x y :: b' ∧
        s <+: torchSave (checkpointPath c.folder (c.index + saves a))
          (pieces (goodFile c.restorees c.folder (c.index + saves a) (worldAfter w a) x y)) ∧ s ≠ []) := by
  induction es generalizing c w d stop with
  | nil =>
    refine ⟨[], [], rfl, [], ?_, Or.inl rfl⟩
    simpa [written] using h
  | cons e es ih =>
    cases e with
    | change f =>
      obtain ⟨a, b, rfl, s, rfl, hs'⟩ := ih c (f w) d hs h
      refine ⟨.change f :: a, b, rfl, s, rfl, ?_⟩
      rw [saves_change]
      exact hs'
    | save x y =>
      simp only [written, endCycleActs_eq] at h
      rcases prefix_cases h with h | ⟨s, rfl, h'⟩
      · by_cases hne : stop = []
        · exact ⟨[], .save x y :: es, rfl, [], by simp [written, hne], Or.inl rfl⟩
        · exact ⟨[], .save x y :: es, rfl, stop, by simp [written],
            Or.inr ⟨x, y, es, rfl, by simpa [saves, worldAfter] using h, hne⟩⟩
      · obtain ⟨a, b, rfl, t, rfl, ht⟩ := ih { c with index := c.index + 1 } w d hs h'
        refine ⟨.save x y :: a, b, rfl, t, by simp [written, endCycleActs_eq], ?_⟩
        rw [saves_save]
        simp only [worldAfter] at ht ⊢
        have hi : c.index + 1 + (saves a : Int) = c.index + ((saves a + 1 : Nat) : Int) := by push_cast; omega
        rw [hi] at ht
        exact ht

omit [PyNum V] [PyStr V] in
theorem Spec.AtRest.toSingle {d : Disk B} (h : AtRest d) : Single d := ⟨h.fresh, h.single⟩

/-! ## C153 -/

/-- **C153** as it is wanted: however a run stops, a checkpoint that was finished can be loaded. -/
def C153_claim (B : Type) (W : Type u) (S : Type v) (V : Type w) [PyNum V] [PyStr V] : Prop :=
  ∀ (pieces : CkptFile S V → List (List B)) (load : List B → Option (CkptFile S V)), Format pieces load →
    ∀ (c : Saver W S) (w : W) (d : Disk B), AtRest d → ∀ (a b : List (CkEvent W V)) (x y : V) (stop : List (Act B)),
      stop <+: written pieces c w (a ++ .save x y :: b) → written pieces c w (a ++ [.save x y]) <+: stop →
      ∀ (crash : Crash) (d' : Disk B), AfterCrash crash (runActs stop d) d' →
        (d'.read (checkpointPath c.folder (c.index + saves a))).bind load =
          some (goodFile c.restorees c.folder (c.index + saves a) (worldAfter w a) x y)

/-- **C153** as it is wanted, the other half: a checkpoint file that is found is complete, however the run stopped. -/
def C153_complete_claim (B : Type) (W : Type u) (S : Type v) (V : Type w) [PyNum V] [PyStr V] : Prop :=
  ∀ (pieces : CkptFile S V → List (List B)) (load : List B → Option (CkptFile S V)), Format pieces load →
    ∀ (c : Saver W S) (w : W) (d : Disk B), AtRest d → ∀ (es : List (CkEvent W V)) (stop : List (Act B)),
      stop <+: written pieces c w es → ∀ (crash : Crash) (d' : Disk B), AfterCrash crash (runActs stop d) d' →
        ∀ k : Nat, d.read (checkpointPath c.folder (c.index + k)) = none →
          ∀ bytes, d'.read (checkpointPath c.folder (c.index + k)) = some bytes → (load bytes).isSome

/-- **C153_partial**. If the process is killed at any moment of a run, each checkpoint that was finished is complete, with the state
dicts and the training state of its moment. Missing: a loss of power, see `C153_false`. -/
theorem C153_partial {load : List B → Option (CkptFile S V)} (hf : Format pieces load) (c : Saver W S) (w : W) {d : Disk B}
    (hd : AtRest d) (a b : List (CkEvent W V)) (x y : V) {stop : List (Act B)} (h : stop <+: written pieces c w (a ++ .save x y :: b))
    (hdone : written pieces c w (a ++ [.save x y]) <+: stop) {d' : Disk B} (hc : AfterCrash .killed (runActs stop d) d') :
    (d'.read (checkpointPath c.folder (c.index + saves a))).bind load =
      some (goodFile c.restorees c.folder (c.index + saves a) (worldAfter w a) x y) := by
  simp only [AfterCrash] at hc
  rw [hc, finished hd.toSingle a b x y h hdone]
  exact hf.reads _

/-- **C153**: it is loaded as the original run would have loaded it. -/
theorem C153_restore_partial {W' : Type x} {load : List B → Option (CkptFile S V)} (hf : Format pieces load) (c : Saver W S)
    (w : W) {d : Disk B} (hd : AtRest d) (a b : List (CkEvent W V)) (x y : V) {stop : List (Act B)}
    (h : stop <+: written pieces c w (a ++ .save x y :: b)) (hdone : written pieces c w (a ++ [.save x y]) <+: stop) {d' : Disk B}
    (hc : AfterCrash .killed (runActs stop d) d') {ck : CkDisk S V} (hck : c.folder ∈ ck.folders) (l : CkptLoader W' S)
    (hfold : l.folder = c.folder) (hi : l.index = c.index + saves a) (w' : W') :
    restore load true l d' w' = l.restore (runCk c w ck (a ++ .save x y :: b)).2 w' := by
  have h1 := C153_partial hf c w hd a b x y h hdone hc
  have h2 := C45_saved c w ck hck a b x y
  have h3 := (runCk_spec c w ck hck (a ++ .save x y :: b)).2.1
  unfold restore CkptLoader.restore
  rw [hfold, hi, h3, if_pos hck, h2, if_pos rfl]
  cases hr : d'.read (checkpointPath c.folder (c.index + saves a)) with
  | none => rw [hr] at h1; simp at h1
  | some bytes =>
    rw [hr] at h1
    have h1 : load bytes = _ := h1
    simp only [h1]
    rfl

/-- **C153** (other files). Neither a kill nor a loss of power at any moment changes a file that is not one of the checkpoints of the
run: exports, and checkpoints of earlier runs with other indices, stay. -/
theorem C153_others (c : Saver W S) (w : W) {d : Disk B} (hd : AtRest d) (es : List (CkEvent W V)) {stop : List (Act B)}
    (h : stop <+: written pieces c w es) {p : String} (hp : ∀ k : Nat, k < saves es → p ≠ checkpointPath c.folder (c.index + k))
    {crash : Crash} {d' : Disk B} (hc : AfterCrash crash (runActs stop d) d') : d'.read p = d.read p := by
  refine Keeps.crash hd ((keeps_self (by simp [hd.pending])).runs hd.toSingle fun a ha e => ?_) hc
  obtain ⟨k, hk, e'⟩ := acts_path (h.subset ha)
  exact hp k hk (by rw [← e, e'])

/-- **C153** (the one file). If the process is killed, at most one file of the run is not complete, the one after those that are
finished. Trying to load it raises and changes no object. -/
theorem C153_torn_partial {load : List B → Option (CkptFile S V)} (hf : Format pieces load) (c : Saver W S) (w : W) {d : Disk B}
    (hd : AtRest d) (es : List (CkEvent W V)) {stop : List (Act B)} (h : stop <+: written pieces c w es) {d' : Disk B}
    (hc : AfterCrash .killed (runActs stop d) d') :
    ∃ n : Nat, n ≤ saves es ∧
      (∀ k : Nat, k < n → ∃ a x y b, es = a ++ .save x y :: b ∧ saves a = k ∧
        (d'.read (checkpointPath c.folder (c.index + k))).bind load =
          some (goodFile c.restorees c.folder (c.index + k) (worldAfter w a) x y)) ∧
      (∀ k : Nat, n < k → d'.read (checkpointPath c.folder (c.index + k)) = d.read (checkpointPath c.folder (c.index + k))) ∧
      (d'.read (checkpointPath c.folder (c.index + n)) = d.read (checkpointPath c.folder (c.index + n)) ∨
        ∃ a x y b, es = a ++ .save x y :: b ∧ saves a = n ∧
          ((d'.read (checkpointPath c.folder (c.index + n))).bind load =
              some (goodFile c.restorees c.folder (c.index + n) (worldAfter w a) x y) ∨
            ∀ {W' : Type x} (l : CkptLoader W' S) (w' : W'), l.folder = c.folder → l.index = c.index + n →
              restore load true l d' w' = (w', .error (.error .runtimeError)))) := by
  simp only [AfterCrash] at hc
  subst hc
  obtain ⟨a, b, rfl, s, rfl, hstop⟩ := stopped c w d hd.toSingle es h
  have hsaves : saves (a ++ b) = saves a + saves b := by simp [saves]
  have hlast : ∀ t ∈ s, t.path = checkpointPath c.folder (c.index + saves a) := by
    intro t ht
    rcases hstop with rfl | ⟨x, y, b', rfl, hs, -⟩
    · simp at ht
    · exact torchSave_path (hs.subset ht)
  refine ⟨saves a, by omega, ?_, ?_, ?_⟩
  · intro k hk
    -- the save number `k` among the finished ones
    have key : ∀ (a : List (CkEvent W V)) (k : Nat), k < saves a → ∃ a' x y b', a = a' ++ .save x y :: b' ∧ saves a' = k := by
      intro a
      induction a with
      | nil => intro k hk; simp [saves] at hk
      | cons e a ih =>
        intro k hk
        cases e with
        | change f =>
          rw [saves_change] at hk
          obtain ⟨a', x, y, b', rfl, e⟩ := ih k hk
          exact ⟨.change f :: a', x, y, b', rfl, by rw [saves_change, e]⟩
        | save x y =>
          cases k with
          | zero => exact ⟨[], x, y, a, rfl, rfl⟩
          | succ k =>
            rw [saves_save] at hk
            obtain ⟨a', u, v, b', rfl, e⟩ := ih k (by omega)
            exact ⟨.save x y :: a', u, v, b', rfl, by rw [saves_save, e]⟩
    obtain ⟨a', x, y, b', rfl, rfl⟩ := key a k hk
    refine ⟨a', x, y, b' ++ b, by simp, rfl, ?_⟩
    refine C153_partial hf c w hd a' (b' ++ b) x y (stop := written pieces c w (a' ++ .save x y :: b') ++ s) (by simpa using h) ?_ rfl
    rw [show a' ++ .save x y :: b' = (a' ++ [.save x y]) ++ b' by simp, acts_append _ _ _ b', List.append_assoc]
    exact List.prefix_append _ _
  · intro k hk
    refine read_keeps hd.toSingle fun t ht e => ?_
    rcases List.mem_append.1 ht with ht | ht
    · obtain ⟨j, hj, e'⟩ := acts_path ht
      have := checkpointPath_inj (e'.symm.trans e)
      omega
    · have := checkpointPath_inj ((hlast t ht).symm.trans e)
      omega
  · rcases hstop with rfl | ⟨x, y, b', rfl, hs, hne⟩
    · left
      refine read_keeps hd.toSingle fun t ht e => ?_
      rw [List.append_nil] at ht
      obtain ⟨j, hj, e'⟩ := acts_path ht
      have := checkpointPath_inj (e'.symm.trans e)
      omega
    · right
      refine ⟨a, x, y, b', rfl, rfl, ?_⟩
      rcases save_prefix hs (runActs (written pieces c w a) d) with e | ⟨bytes, hb, hr⟩
      · exact absurd e hne
      · rw [runActs_append, hr]
        by_cases he : bytes = (pieces (goodFile c.restorees c.folder (c.index + saves a) (worldAfter w a) x y)).flatten
        · left
          rw [he]
          exact hf.reads _
        · right
          intro W' l w' h1 h2
          unfold restore
          rw [if_pos rfl, h1, h2, hr]
          simp only [hf.refuses _ _ hb he]

end

/-! ## Examples -/

namespace Ex

/-- The bytes of the examples: a header, and the whole content with the directory of the zip file. -/
abbrev Byte := Option (CkptFile Nat (Int ⊕ String))

def pieces (f : CkptFile Nat (Int ⊕ String)) : List (List Byte) := [[none], [some f]]

def load : List Byte → Option (CkptFile Nat (Int ⊕ String))
  | [none, some f] => some f
  | _ => none

theorem format : Format pieces load := by
  refine ⟨fun f => rfl, fun f bytes h hne => ?_⟩
  obtain ⟨rest, hr⟩ := h
  simp only [pieces, List.flatten_cons, List.flatten_nil, List.append_nil, List.cons_append, List.nil_append] at hr hne
  match bytes, hr, hne with
  | [], _, _ => rfl
  | [none], _, _ => rfl
  | [some _], _, _ => rfl
  | [x, y], hr, hne => simp at hr; simp [hr.1, hr.2] at hne
  | x :: y :: z :: l, hr, _ => simp at hr

/-- An empty disk -/
def disk : Disk Byte := ⟨fun _ => none, fun _ => ([], true), [], 0⟩

theorem atRest : AtRest disk := by
  constructor <;> simp [disk]

/-- The effects of the two checkpoints of the example for C45 -/
def run : List (Act Byte) := written pieces CkptDemo.saver (0, 0) CkptDemo.history

/-- Killed while the second checkpoint is written: the first one is there, the second one cannot be loaded. -/
example : restore load true (CkptLoader.mk "run/checkpoints" 0 ⟨true, true, true⟩ [CkptDemo.obj "b" false])
    (runActs (run.take 5) disk) (7, 8) =
      ((7, 2), .ok [("latest_checkpoint", .inr "run/checkpoints/checkpoint_0.tar"), ("bp_step", .inl 10),
        ("bp_samples", .inl 320), ("checkpoint_index", .inl 0)]) := by decide +kernel

example : restore load true (CkptLoader.mk "run/checkpoints" 1 ⟨true, true, true⟩ [CkptDemo.obj "b" false])
    (runActs (run.take 5) disk) (7, 8) = ((7, 8), .error (.error .runtimeError)) := by decide +kernel

example : restore load true (CkptLoader.mk "run/checkpoints" 1 ⟨true, true, true⟩ [CkptDemo.obj "b" false])
    (runActs run disk) (7, 8) =
      ((7, 4), .ok [("latest_checkpoint", .inr "run/checkpoints/checkpoint_1.tar"), ("bp_step", .inl 20),
        ("bp_samples", .inl 640), ("checkpoint_index", .inl 1)]) := by decide +kernel

example := C153_restore_partial format CkptDemo.saver (0, 0) atRest (CkptDemo.history.take 1) (CkptDemo.history.drop 2) (.inl 10)
  (.inl 320) (stop := run.take 5) ⟨run.drop 5, by rfl⟩ ⟨[run[3], run[4]], by rfl⟩ rfl (ck := ⟨["run/checkpoints"], []⟩)
  (by decide) (CkptLoader.mk "run/checkpoints" 0 ⟨true, true, true⟩ [CkptDemo.obj "b" false]) rfl rfl (7, 8)

example := C153_torn_partial format CkptDemo.saver (0, 0) atRest CkptDemo.history (stop := run.take 5) ⟨run.drop 5, by rfl⟩ rfl

example (crash : Crash) (d' : Disk Byte) (h : AfterCrash crash (runActs (run.take 5) disk) d') :
    d'.read "run/memory_export.zip" = disk.read "run/memory_export.zip" :=
  C153_others (pieces := pieces) CkptDemo.saver (0, 0) atRest CkptDemo.history ⟨run.drop 5, by rfl⟩ (by
    intro k _ e
    have := congrArg (fun s : String => s.toList[4]?) e
    simp [checkpointPath, joinPath, CkptDemo.saver] at this) h

end Ex

/-- **C153** fails for a loss of power: nothing is synced, and what is found of a checkpoint that was finished may be empty. -/
theorem C153_false : ¬ C153_claim Ex.Byte (Nat × Nat) Nat (Int ⊕ String) := fun h => by
  have := h Ex.pieces Ex.load Ex.format CkptDemo.saver (0, 0) Ex.disk Ex.atRest (CkptDemo.history.take 1)
    (CkptDemo.history.drop 2) (.inl 10) (.inl 320) (Ex.run.take 3) ⟨Ex.run.drop 3, by rfl⟩ ⟨[], by rfl⟩ .powerLoss
    ⟨(runActs (Ex.run.take 3) Ex.disk).dir, fun _ => ([], true), [], 1⟩
    ⟨rfl, rfl, Or.inl rfl, fun _ => rfl, fun i hi => by
      by_cases h0 : i = 0
      · subst h0; revert hi; decide +kernel
      · exact (files_beyond (as := Ex.run.take 3) Ex.atRest.toSingle (by
          rw [show (runActs (Ex.run.take 3) Ex.disk).next = 1 by decide +kernel]; omega)).symm⟩
  revert this
  decide +kernel

/-- **C153** fails for files: killed while it writes a checkpoint, the process leaves a file that cannot be loaded. -/
theorem C153_complete_false : ¬ C153_complete_claim Ex.Byte (Nat × Nat) Nat (Int ⊕ String) := fun h => by
  have := h Ex.pieces Ex.load Ex.format CkptDemo.saver (0, 0) Ex.disk Ex.atRest CkptDemo.history (Ex.run.take 2)
    ⟨Ex.run.drop 2, by rfl⟩ .killed _ rfl 0 rfl [none] (by decide +kernel)
  revert this
  decide +kernel

end CkptWrite

end Verif
