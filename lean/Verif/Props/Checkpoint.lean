import Verif.Model.Checkpoint
import Verif.Lemmas.Proxy
import Verif.Lemmas.List
import Mathlib.Data.List.Nodup

/-!
# Properties of checkpoints (C45, C46, C82, C83)
-/

namespace Verif

variable {W : Type u} {S : Type v} {V : Type w}

/-! ## Names of checkpoints -/

theorem natRepr_inj {m n : Nat} (h : toString m = toString n) : m = n := by
  rw [Nat.toString_eq_ofList_toDigits, Nat.toString_eq_ofList_toDigits] at h
  have h := congrArg (fun s => Nat.ofDigitChars 10 s.toList 0) h
  simpa [String.toList_ofList, Nat.ofDigitChars_ten_toDigits] using h

theorem natRepr_ne_neg (m n : Nat) : toString m ≠ "-" ++ toString n := by
  intro h
  have h := congrArg String.toList h
  rw [Nat.toString_eq_ofList_toDigits, String.toList_ofList, String.toList_append] at h
  have hm : '-' ∈ Nat.toDigits 10 m := by rw [h]; simp
  have := Nat.isDigit_of_mem_toDigits (by decide) (by decide) hm
  revert this
  decide

theorem intRepr_inj {a b : Int} (h : toString a = toString b) : a = b := by
  cases a with
  | ofNat m => cases b with
    | ofNat n => exact congrArg Int.ofNat (natRepr_inj h)
    | negSucc n => exact absurd h (natRepr_ne_neg m (n + 1))
  | negSucc m => cases b with
    | ofNat n => exact absurd h.symm (natRepr_ne_neg n (m + 1))
    | negSucc n =>
      have h : "-" ++ toString (m + 1) = "-" ++ toString (n + 1) := h
      have := natRepr_inj ((String.append_right_inj _).1 h)
      rw [Nat.succ.inj this]

theorem checkpointName_inj {a b : Int} (h : checkpointName a = checkpointName b) : a = b := by
  unfold checkpointName at h
  exact intRepr_inj ((String.append_right_inj _).1 ((String.append_left_inj _).1 h))

theorem checkpointPath_inj {folder : String} {a b : Int} (h : checkpointPath folder a = checkpointPath folder b) :
    a = b := by
  unfold checkpointPath joinPath at h
  split at h
  · exact checkpointName_inj ((String.append_right_inj _).1 h)
  · exact checkpointName_inj ((String.append_right_inj _).1 h)

/-! ## Histories -/

/-- What happens in a run, as far as checkpoints are concerned: the objects change somehow, or `end_cycle` of the
checkpointer is called. -/
inductive CkEvent (W : Type u) (V : Type v) where
  | change (f : W → W)
  | save (bpStep bpSamples : V)

/-- Is it a checkpoint? -/
def CkEvent.isSave : CkEvent W V → Bool
  | .save _ _ => true
  | .change _ => false

/-- The number of checkpoints. -/
def saves (es : List (CkEvent W V)) : Nat := es.countP CkEvent.isSave

/-- The objects after the events: only the changes matter. -/
def worldAfter (w : W) : List (CkEvent W V) → W
  | [] => w
  | .change f :: es => worldAfter (f w) es
  | .save _ _ :: es => worldAfter w es

/-- The checkpointer and the disk after the events. -/
def runCk [PyNum V] [PyStr V] (c : Saver W S) (w : W) (d : CkDisk S V) : List (CkEvent W V) → Saver W S × CkDisk S V
  | [] => (c, d)
  | .change f :: es => runCk c (f w) d es
  | .save a b :: es =>
    let r := (c.endCycle a b w d).1
    runCk r.1 w r.2 es

/-- What a checkpoint with index `i` should contain. -/
def goodFile [PyNum V] [PyStr V] (rs : List (Restoree W S)) (folder : String) (i : Int) (w : W) (bpStep bpSamples : V) :
    CkptFile S V :=
  ⟨rs.map fun r => (r.name, r.stateDict w),
    [("latest_checkpoint", PyStr.ofStr (checkpointPath folder i)), ("bp_step", bpStep), ("bp_samples", bpSamples),
      ("checkpoint_index", PyNum.ofInt i)]⟩

section

variable [PyNum V] [PyStr V]

theorem endCycle_eq (c : Saver W S) (a b : V) (w : W) (d : CkDisk S V) (h : c.folder ∈ d.folders) :
    (c.endCycle a b w d).1 = ({ c with index := c.index + 1 },
      { d with files := d.files.set (checkpointPath c.folder c.index) (goodFile c.restorees c.folder c.index w a b) }) := by
  unfold Saver.endCycle goodFile
  simp [h]

theorem runCk_append (c : Saver W S) (w : W) (d : CkDisk S V) (a b : List (CkEvent W V)) :
    runCk c w d (a ++ b) = runCk (runCk c w d a).1 (worldAfter w a) (runCk c w d a).2 b := by
  induction a generalizing c w d with
  | nil => rfl
  | cons e a ih =>
    cases e with
    | change f => exact ih c (f w) d
    | save x y => exact ih _ w _

/-- The checkpointer after the events, and the files with lower numbers, which stay. -/
theorem runCk_spec (c : Saver W S) (w : W) (d : CkDisk S V) (h : c.folder ∈ d.folders) (es : List (CkEvent W V)) :
    (runCk c w d es).1 = { c with index := c.index + saves es } ∧ (runCk c w d es).2.folders = d.folders ∧
      (∀ p, (∀ i, c.index ≤ i → i < c.index + saves es → p ≠ checkpointPath c.folder i) →
        (runCk c w d es).2.files.get? p = d.files.get? p) := by
  induction es generalizing c w d with
  | nil => exact ⟨by simp [runCk, saves], rfl, fun _ _ => rfl⟩
  | cons e es ih =>
    cases e with
    | change f =>
      have hs : saves (.change f :: es) = saves es := by simp [saves, CkEvent.isSave]
      rw [hs]
      exact ih c (f w) d h
    | save a b =>
      have hs : saves (.save a b :: es) = saves es + 1 := List.countP_cons_of_pos rfl
      rw [hs]
      have he := endCycle_eq c a b w d h
      unfold runCk
      rw [he]
      obtain ⟨h1, h2, h3⟩ := ih { c with index := c.index + 1 } w
        { d with files := d.files.set (checkpointPath c.folder c.index) (goodFile c.restorees c.folder c.index w a b) } h
      refine ⟨?_, h2, fun p hp => ?_⟩
      · rw [h1]
        simp only [Saver.mk.injEq, true_and, and_true]
        push_cast
        omega
      · rw [h3 p fun i hi hi' => hp i (by simp only at hi; omega) (by simp only at hi'; push_cast; omega)]
        exact Dict.get?_set_ne (Ne.symm (hp c.index (le_refl _) (by push_cast; omega)))

/-! ## C45 -/

/-- **C45** (saving). In every run, the checkpoint that is written after the events `a` holds, for every restoree, the
state dict that it has at that moment, and the training state of that moment; whatever happens later in the run, the
file stays so. -/
theorem C45_saved (c : Saver W S) (w : W) (d : CkDisk S V) (h : c.folder ∈ d.folders) (a b : List (CkEvent W V))
    (bpStep bpSamples : V) :
    (runCk c w d (a ++ .save bpStep bpSamples :: b)).2.files.get? (checkpointPath c.folder (c.index + saves a))
      = some (goodFile c.restorees c.folder (c.index + saves a) (worldAfter w a) bpStep bpSamples) := by
  rw [runCk_append]
  obtain ⟨h1, h2, -⟩ := runCk_spec c w d h a
  generalize runCk c w d a = r at h1 h2
  obtain ⟨c', d'⟩ := r
  simp only at h1 h2 ⊢
  subst h1
  unfold runCk
  have hf : c.folder ∈ d'.folders := h2 ▸ h
  rw [endCycle_eq { c with index := c.index + saves a } _ _ _ _ hf]
  obtain ⟨-, -, h3⟩ := runCk_spec { c with index := c.index + saves a + 1 } (worldAfter w a)
    (CkDisk.mk d'.folders (d'.files.set (checkpointPath c.folder (c.index + saves a))
      (goodFile c.restorees c.folder (c.index + saves a) (worldAfter w a) bpStep bpSamples))) hf b
  rw [h3 _ fun i hi _ he => ?_]
  · exact Dict.get?_set_self
  · have := checkpointPath_inj he
    simp only at hi
    omega

/-- **C45** (in training). What the trainer makes the checkpointer do: `begin_training` makes the folder and keeps the files; at the
end of a cycle the next checkpoint is written, of the objects as they are, with step and samples of the trainer's state, and its
path and index are reported; without these entries, and in all other hooks, nothing is written. -/
theorem C45_callback (ident : Nat) (interval : Int) (folder : String) (rs : List (Restoree W S)) (st : Dict String V)
    (w : CkWorld W S V) :
    let cb := saverCallback ident interval folder rs
    cb.cycle = some interval ∧
    (let r := cb.hook .beginTraining st w;
      folder ∈ r.1.disk.folders ∧ r.1.disk.files = w.disk.files ∧ r.1.user = w.user ∧ r.1.index = w.index ∧ r.2 = .ok none) ∧
    (∀ a b, st.get? "bp_step" = some a → st.get? "bp_samples" = some b → folder ∈ w.disk.folders →
      let r := cb.hook .endCycle st w;
      r.1.user = w.user ∧ r.1.disk.folders = w.disk.folders ∧
        (Saver.mk folder r.1.index rs, r.1.disk) = runCk (Saver.mk folder w.index rs) w.user w.disk [.save a b] ∧
        r.2 = .ok (some [("latest_checkpoint", PyStr.ofStr (checkpointPath folder w.index)),
          ("checkpoint_index", PyNum.ofInt w.index)])) ∧
    (st.get? "bp_step" = none ∨ st.get? "bp_samples" = none → cb.hook .endCycle st w = (w, .error (.error .typeError))) ∧
    (∀ h, h ≠ .beginTraining → h ≠ .endCycle → cb.hook h st w = (w, .ok none)) := by
  refine ⟨rfl, ?_, fun a b ha hb hf => ?_, fun hn => ?_, fun h h1 h2 => ?_⟩
  · simp only [saverCallback, makeFolder]
    by_cases hf : folder ∈ w.disk.folders
    · simp [hf]
    · simp [hf]
  · simp only [saverCallback, ha, hb, Saver.endCycle, hf, if_true, runCk, and_self]
  · simp only [saverCallback]
    rcases hn with hn | hn
    · rw [hn]
    · rw [hn]
      cases st.get? "bp_step" <;> rfl
  · cases h <;> first | rfl | exact absurd rfl h1 | exact absurd rfl h2

/-- Objects that obey the contract of `Restoree`: loading one of `states` under its name succeeds and gives it that
state; and it leaves objects of other names alone. -/
structure Lawful (flags : LoadFlags) (states : Dict String S) (rs : List (Restoree W S)) : Prop where
  loads : ∀ r ∈ rs, ∀ s, states.get? r.name = some s → ∀ w,
    (r.loadState s flags w).2 = .ok () ∧ r.stateDict (r.loadState s flags w).1 = s
  apart : ∀ r ∈ rs, ∀ r' ∈ rs, r.name ≠ r'.name → ∀ s w, r'.stateDict (r.loadState s flags w).1 = r'.stateDict w

omit [PyNum V] [PyStr V] in
theorem loadAll_lawful {flags : LoadFlags} {states : Dict String S} (rs : List (Restoree W S))
    (hl : Lawful flags states rs) (hnd : (rs.map Restoree.name).Nodup) (hin : ∀ r ∈ rs, r.name ∈ states.keys) (w : W) :
    (loadAll states flags rs w).2 = .ok () ∧
      ∀ r ∈ rs, states.get? r.name = some (r.stateDict (loadAll states flags rs w).1) := by
  have key : ∀ (todo done : List (Restoree W S)), rs = done ++ todo → ∀ w,
      (∀ r ∈ done, states.get? r.name = some (r.stateDict w)) →
      (loadAll states flags todo w).2 = .ok () ∧
        ∀ r ∈ rs, states.get? r.name = some (r.stateDict (loadAll states flags todo w).1) := by
    intro todo
    induction todo with
    | nil =>
      intro done he w hd
      refine ⟨rfl, fun r hr => hd r ?_⟩
      simpa [he] using hr
    | cons r todo ih =>
      intro done he w hd
      have hr : r ∈ rs := by rw [he]; simp
      obtain ⟨s, hs⟩ := Dict.get?_isSome_of_mem (hin r hr)
      obtain ⟨h1, h2⟩ := hl.loads r hr s hs w
      have heq : loadAll states flags (r :: todo) w = loadAll states flags todo (r.loadState s flags w).1 := by
        conv_lhs => unfold loadAll
        simp only [hs]
        generalize r.loadState s flags w = x at h1
        obtain ⟨w', e⟩ := x
        simp only at h1
        subst h1
        rfl
      rw [heq]
      refine ih (done ++ [r]) (by rw [he]; simp) _ fun r' hr' => ?_
      rcases List.mem_append.1 hr' with hr' | hr'
      · have hne : r.name ≠ r'.name := by
          intro e
          rw [he, List.map_append, List.map_cons] at hnd
          have := (List.nodup_append.1 hnd).2.2 r'.name (List.mem_map_of_mem hr') r.name (by simp)
          exact this e.symm
        rw [hl.apart r hr r' (by rw [he]; simp [hr']) hne, hd r' hr']
      · rw [List.mem_singleton.1 hr', h2, hs]
  exact key rs [] rfl w (by simp)

theorem goodFile_get? (rs : List (Restoree W S)) (hnd : (rs.map Restoree.name).Nodup) (folder : String) (i : Int) (w : W)
    (a b : V) (r : Restoree W S) (hr : r ∈ rs) :
    (goodFile rs folder i w a b).states.get? r.name = some (r.stateDict w) := by
  refine Dict.get?_of_mem ?_ (List.mem_map_of_mem (f := fun r : Restoree W S => (r.name, r.stateDict w)) hr)
  show (List.map Prod.fst (List.map _ rs)).Nodup
  rw [List.map_map]
  exact hnd

/-- The round trip for a checkpointer and a loader with unique names. -/
theorem round_trip {W' : Type x} (c : Saver W S) (hnd : (c.restorees.map Restoree.name).Nodup) (w : W) (d : CkDisk S V)
    (h : c.folder ∈ d.folders) (a b : List (CkEvent W V)) (bpStep bpSamples : V) (l : CkptLoader W' S)
    (hf : l.folder = c.folder) (hi : l.index = c.index + saves a) (hnd' : (l.restorees.map Restoree.name).Nodup)
    (hsub : ∀ r' ∈ l.restorees, ∃ r ∈ c.restorees, r.name = r'.name)
    (hlaw : Lawful l.flags (c.restorees.map fun r => (r.name, r.stateDict (worldAfter w a))) l.restorees) (w' : W') :
    let out := l.restore (runCk c w d (a ++ .save bpStep bpSamples :: b)).2 w'
    out.2 = .ok (if l.flags.hparams then
        [("latest_checkpoint", PyStr.ofStr (checkpointPath c.folder (c.index + saves a))), ("bp_step", bpStep),
          ("bp_samples", bpSamples), ("checkpoint_index", PyNum.ofInt (c.index + saves a))] else []) ∧
      ∀ r' ∈ l.restorees, ∀ r ∈ c.restorees, r.name = r'.name → r'.stateDict out.1 = r.stateDict (worldAfter w a) := by
  intro out
  have hfile := C45_saved c w d h a b bpStep bpSamples
  have hfold := (runCk_spec c w d h (a ++ .save bpStep bpSamples :: b)).2.1
  obtain ⟨h1, h2⟩ := loadAll_lawful l.restorees hlaw hnd' (fun r' hr' => by
    obtain ⟨r, hr, e⟩ := hsub r' hr'
    rw [← e]
    exact Dict.mem_keys_of_mem (List.mem_map_of_mem (f := fun r : Restoree W S => (r.name, r.stateDict (worldAfter w a))) hr)) w'
  have hout : out = ((loadAll (c.restorees.map fun r => (r.name, r.stateDict (worldAfter w a))) l.flags l.restorees w').1,
      .ok (if l.flags.hparams then
        [("latest_checkpoint", PyStr.ofStr (checkpointPath c.folder (c.index + saves a))), ("bp_step", bpStep),
          ("bp_samples", bpSamples), ("checkpoint_index", PyNum.ofInt (c.index + saves a))] else [])) := by
    show l.restore _ w' = _
    unfold CkptLoader.restore
    rw [hf, hi, hfile, if_pos (by rw [hfold]; exact h)]
    simp only [goodFile]
    generalize loadAll _ l.flags l.restorees w' = r at h1
    obtain ⟨u, e⟩ := r
    simp only at h1
    subst h1
    rfl
  rw [hout]
  refine ⟨rfl, fun r' hr' r hr e => ?_⟩
  have h3 := h2 r' hr'
  have h4 := goodFile_get? c.restorees hnd c.folder 0 (worldAfter w a) bpStep bpSamples r hr
  rw [← e] at h3
  exact (Option.some.inj (h3.symm.trans h4))

omit [PyNum V] [PyStr V] in
/-- **C45** (names). Objects of the same name are refused when the checkpointer or the loader is made, so that a
checkpoint never holds one of them only. -/
theorem C45_names (rs : List (Restoree W S)) (root sub : String) (i : Int) (flags : LoadFlags) :
    ((∃ r r' : Nat, r < r' ∧ ∃ x y, rs[r]? = some x ∧ rs[r']? = some y ∧ x.name = y.name) ↔
      Saver.new rs root sub i = .error .valueError) ∧
    ((∃ r r' : Nat, r < r' ∧ ∃ x y, rs[r]? = some x ∧ rs[r']? = some y ∧ x.name = y.name) ↔
      CkptLoader.new rs root sub i flags = .error .valueError) := by
  have key : (∃ r r' : Nat, r < r' ∧ ∃ x y, rs[r]? = some x ∧ rs[r']? = some y ∧ x.name = y.name) ↔
      ¬ (rs.map Restoree.name).Nodup := by
    rw [List.nodup_iff_getElem?_ne_getElem?]
    push Not
    constructor
    · rintro ⟨r, r', hlt, x, y, hx, hy, e⟩
      refine ⟨r, r', hlt, ?_, ?_⟩
      · simpa using (List.getElem?_eq_some_iff.1 hy).1
      · simp [hx, hy, e]
    · rintro ⟨r, r', hlt, hl, e⟩
      have hl : r' < rs.length := by simpa using hl
      refine ⟨r, r', hlt, rs[r], rs[r'], List.getElem?_eq_getElem (by omega), List.getElem?_eq_getElem hl, ?_⟩
      simpa [List.getElem?_eq_getElem hl, List.getElem?_eq_getElem (show r < rs.length by omega)] using e
  rw [key]
  unfold Saver.new CkptLoader.new
  constructor <;> split <;> simp_all

/-- **C45**. Make a checkpointer, begin training, and let anything happen; load the checkpoint that was written after
the events `a`, later or in another process, into any objects that obey the contract: every object then has exactly
the state dict that its namesake had when the checkpoint was written, and the loader returns the training state of
that moment, or nothing without `load_hparams`. -/
theorem C45_round_trip {W' : Type x} {rs : List (Restoree W S)} {root sub : String} {i0 : Int} {c : Saver W S}
    (hc : Saver.new rs root sub i0 = .ok c) {rs' : List (Restoree W' S)} {flags : LoadFlags} {l : CkptLoader W' S}
    (a b : List (CkEvent W V)) (hl : CkptLoader.new rs' root sub (i0 + saves a) flags = .ok l) (w : W) (d : CkDisk S V)
    (bpStep bpSamples : V) (hsub : ∀ r' ∈ rs', ∃ r ∈ rs, r.name = r'.name)
    (hlaw : Lawful flags (rs.map fun r => (r.name, r.stateDict (worldAfter w a))) rs') (w' : W') :
    let out := l.restore (runCk c w (makeFolder c.folder d) (a ++ .save bpStep bpSamples :: b)).2 w'
    out.2 = .ok (if flags.hparams then
        [("latest_checkpoint", PyStr.ofStr (checkpointPath (joinPath root sub) (i0 + saves a))), ("bp_step", bpStep),
          ("bp_samples", bpSamples), ("checkpoint_index", PyNum.ofInt (i0 + saves a))] else []) ∧
      ∀ r' ∈ rs', ∀ r ∈ rs, r.name = r'.name → r'.stateDict out.1 = r.stateDict (worldAfter w a) := by
  unfold Saver.new at hc
  unfold CkptLoader.new at hl
  split at hc
  case isFalse => simp at hc
  case isTrue hnd =>
  split at hl
  case isFalse => simp at hl
  case isTrue hnd' =>
  injection hc with hc
  injection hl with hl
  subst hc hl
  refine round_trip _ hnd w _ ?_ a b bpStep bpSamples _ rfl rfl hnd' hsub hlaw w'
  unfold makeFolder
  split
  · assumption
  · simp

omit [PyNum V] [PyStr V] in
/-- **C45** (failures). A folder or a file that is not there, or a restoree that was not saved, is an error. In the first two cases nothing is
loaded. -/
theorem C45_missing (l : CkptLoader W S) (d : CkDisk S V) (w : W) :
    (l.folder ∉ d.folders → l.restore d w = (w, .error (.error .valueError))) ∧
    (l.folder ∈ d.folders → checkpointPath l.folder l.index ∉ d.files.keys → l.restore d w = (w, .error (.error .osError))) ∧
    (∀ file, d.files.get? (checkpointPath l.folder l.index) = some file → (∃ r ∈ l.restorees, r.name ∉ file.states.keys) →
      ∃ w' e, l.restore d w = (w', .error e)) := by
  refine ⟨fun h => by unfold CkptLoader.restore; rw [if_neg h],
    fun h h' => by unfold CkptLoader.restore; rw [if_pos h, Dict.get?_none_iff.2 h'], fun file hf ⟨r, hr, hn⟩ => ?_⟩
  have key : ∀ rs : List (Restoree W S), r ∈ rs → ∀ w, ∃ w' e, loadAll file.states l.flags rs w = (w', .error e) := by
    intro rs
    induction rs with
    | nil => simp
    | cons x rs ih =>
      intro hx w
      unfold loadAll
      cases hs : file.states.get? x.name with
      | none => exact ⟨_, _, rfl⟩
      | some s =>
        rcases List.mem_cons.1 hx with rfl | hx
        · exact absurd (Dict.mem_keys_of_mem (Dict.mem_of_get? hs)) hn
        · simp only
          generalize x.loadState s l.flags w = y
          obtain ⟨w', e | ⟨⟩⟩ := y
          · exact ⟨_, _, rfl⟩
          · exact ih hx w'
  unfold CkptLoader.restore
  split
  · rw [hf]
    obtain ⟨w', e, h1⟩ := key l.restorees hr w
    simp only [h1]
    exact ⟨_, _, rfl⟩
  · exact ⟨_, _, rfl⟩

/-! ## C46 -/

/-- **C46_partial**. A run writes one new file per checkpoint and leaves all files alone that were there before, or that
it wrote itself: if the checkpointer's first index is above those of the checkpoints in the folder. Missing: a resumed
run with the default index, for which it fails (`C46_false`, `C46_overwrites`). -/
theorem C46_partial (c : Saver W S) (w : W) (d : CkDisk S V) (h : c.folder ∈ d.folders)
    (hnew : ∀ i, c.index ≤ i → checkpointPath c.folder i ∉ d.files.keys) (a b : List (CkEvent W V)) :
    (∀ p x, (runCk c w d a).2.files.get? p = some x → (runCk c w d (a ++ b)).2.files.get? p = some x) ∧
      (runCk c w d a).2.files.length = d.files.length + saves a := by
  have hkeys : ∀ es : List (CkEvent W V), ∀ i, c.index + saves es ≤ i →
      checkpointPath c.folder i ∉ (runCk c w d es).2.files.keys := by
    intro es i hi hm
    obtain ⟨x, hx⟩ := Dict.get?_isSome_of_mem hm
    rw [(runCk_spec c w d h es).2.2 _ fun j _ hj he => by
      have := checkpointPath_inj he
      omega] at hx
    exact hnew i (by omega) (Dict.mem_keys_of_mem (Dict.mem_of_get? hx))
  constructor
  · intro p x hp
    rw [runCk_append]
    obtain ⟨h1, h2, -⟩ := runCk_spec c w d h a
    have hk := hkeys a
    generalize runCk c w d a = r at *
    obtain ⟨c', d'⟩ := r
    simp only at h1 h2 hp hk ⊢
    subst h1
    have hf : c.folder ∈ d'.folders := h2 ▸ h
    rw [(runCk_spec { c with index := c.index + saves a } (worldAfter w a) d' hf b).2.2 p ?_, hp]
    rintro i hi - rfl
    exact hk i hi (Dict.mem_keys_of_mem (Dict.mem_of_get? hp))
  · induction a using snocInduction with
    | nil => rfl
    | snoc a e ih =>
      have hk := hkeys a
      obtain ⟨h1, h2, -⟩ := runCk_spec c w d h a
      rw [runCk_append]
      generalize runCk c w d a = r at *
      obtain ⟨c', d'⟩ := r
      simp only at h1 h2 hk ih ⊢
      subst h1
      cases e with
      | change f => simpa [runCk, saves, CkEvent.isSave] using ih
      | save x y =>
        have hf : c.folder ∈ d'.folders := h2 ▸ h
        unfold runCk
        rw [endCycle_eq { c with index := c.index + saves a } _ _ _ _ hf]
        simp only [runCk]
        rw [Dict.set_of_not_mem (hk _ (le_refl _))]
        simp only [List.length_append, List.length_singleton, ih]
        simp only [saves, List.countP_append, List.countP_singleton, CkEvent.isSave, if_true]
        omega

/-- **C46** as it is wanted: a run that resumes, with a checkpointer made like the first one, keeps the checkpoints of
the first run. -/
def C46_claim (W S V : Type) [PyNum V] [PyStr V] : Prop :=
  ∀ (rs : List (Restoree W S)) (root sub : String) (c : Saver W S), Saver.new rs root sub = .ok c →
    ∀ (w w' : W) (es es' : List (CkEvent W V)) (p : String) (x : CkptFile S V),
      let d := (runCk c w ⟨[c.folder], []⟩ es).2
      d.files.get? p = some x → (runCk c w' d es').2.files.get? p = some x

/-- **C46** (what happens). If the resumed run has a checkpointer whose index is the index of an earlier checkpoint (the
default 0, or the restored `checkpoint_index`), then its first checkpoint replaces that one. -/
theorem C46_overwrites (c : Saver W S) (w' : W) (d : CkDisk S V) (h : c.folder ∈ d.folders) (x : CkptFile S V)
    (_hx : d.files.get? (checkpointPath c.folder c.index) = some x) (f : W → W) (a b : V) (es : List (CkEvent W V)) :
    (runCk c w' d (.change f :: .save a b :: es)).2.files.get? (checkpointPath c.folder c.index)
      = some (goodFile c.restorees c.folder c.index (f w') a b) := by
  have := C45_saved c w' d h [.change f] es a b
  simpa [saves, CkEvent.isSave, worldAfter] using this

end

namespace CkptDemo

instance : PyNum (Int ⊕ String) := ⟨.inl, fun x => match x with
  | .inl n => some n
  | .inr _ => none, fun _ => rfl⟩

instance : PyStr (Int ⊕ String) := ⟨.inr⟩

/-- An object whose state is a number. -/
def obj (name : String) (first : Bool) : Restoree (Nat × Nat) Nat where
  name := name
  stateDict w := if first then w.1 else w.2
  loadState s _ w := (if first then (s, w.2) else (w.1, s), .ok ())

def saver : Saver (Nat × Nat) Nat := ⟨"run/checkpoints", 0, [obj "a" true, obj "b" false]⟩

example : Saver.new [obj "a" true, obj "b" false] "run" "checkpoints" = .ok saver := by rfl
example : Saver.new [obj "a" true, obj "a" false] "run" "checkpoints" = .error .valueError := by rfl

/-- Two checkpoints. -/
def history : List (CkEvent (Nat × Nat) (Int ⊕ String)) :=
  [.change fun _ => (1, 2), .save (.inl 10) (.inl 320), .change fun _ => (3, 4), .save (.inl 20) (.inl 640),
    .change fun _ => (5, 6)]

def disk : CkDisk Nat (Int ⊕ String) := (runCk saver (0, 0) ⟨["run/checkpoints"], []⟩ history).2

example : disk.files = [("run/checkpoints/checkpoint_0.tar", ⟨[("a", 1), ("b", 2)],
      [("latest_checkpoint", .inr "run/checkpoints/checkpoint_0.tar"), ("bp_step", .inl 10), ("bp_samples", .inl 320),
        ("checkpoint_index", .inl 0)]⟩),
    ("run/checkpoints/checkpoint_1.tar", ⟨[("a", 3), ("b", 4)],
      [("latest_checkpoint", .inr "run/checkpoints/checkpoint_1.tar"), ("bp_step", .inl 20), ("bp_samples", .inl 640),
        ("checkpoint_index", .inl 1)]⟩)] := by decide +kernel

/- Loading one of them, one of the objects only. -/
example : (CkptLoader.mk "run/checkpoints" 1 ⟨true, true, true⟩ [obj "b" false]).restore disk (7, 8) =
    ((7, 4), .ok [("latest_checkpoint", .inr "run/checkpoints/checkpoint_1.tar"), ("bp_step", .inl 20),
      ("bp_samples", .inl 640), ("checkpoint_index", .inl 1)]) := by decide +kernel

theorem lawful (flags : LoadFlags) (states : Dict String Nat) : Lawful flags states saver.restorees := by
  constructor
  · intro r hr s hs w
    simp only [saver, List.mem_cons, List.not_mem_nil, or_false] at hr
    rcases hr with rfl | rfl <;> exact ⟨rfl, rfl⟩
  · intro r hr r' hr' hne s w
    simp only [saver, List.mem_cons, List.not_mem_nil, or_false] at hr hr'
    rcases hr with rfl | rfl <;> rcases hr' with rfl | rfl <;> first | exact absurd rfl hne | rfl

example := C45_round_trip (c := saver) (rs := saver.restorees) (rs' := saver.restorees) (root := "run")
  (sub := "checkpoints") (i0 := 0) rfl (flags := ⟨true, true, true⟩)
  (l := ⟨"run/checkpoints", 1, ⟨true, true, true⟩, saver.restorees⟩) (history.take 3) (history.drop 4) rfl (0, 0)
  (⟨[], []⟩ : CkDisk Nat (Int ⊕ String)) (.inl 20) (.inl 640) (fun r hr => ⟨r, hr, rfl⟩) (lawful _ _) (7, 8)

example : Saver.new [obj "a" true, obj "b" false, obj "a" false] "run" "checkpoints" = .error .valueError :=
  (C45_names _ _ _ 0 ⟨true, true, true⟩).1.1 ⟨0, 2, by omega, _, _, rfl, rfl, rfl⟩

end CkptDemo

/-- **C46** fails: the first checkpoint of the resumed run replaces the first one of the run before. -/
theorem C46_false : ¬ C46_claim (Nat × Nat) Nat (Int ⊕ String) := by
  intro h
  have := h [CkptDemo.obj "a" true, CkptDemo.obj "b" false] "run" "checkpoints" CkptDemo.saver rfl (0, 0) (0, 0)
    CkptDemo.history [.change fun _ => (100, 100), .save (.inl 20) (.inl 672)] "run/checkpoints/checkpoint_0.tar" _
    (show _ = some (⟨[("a", 1), ("b", 2)],
      [("latest_checkpoint", .inr "run/checkpoints/checkpoint_0.tar"), ("bp_step", .inl 10), ("bp_samples", .inl 320),
        ("checkpoint_index", .inl 0)]⟩ : CkptFile Nat (Int ⊕ String)) by decide +kernel)
  revert this
  decide +kernel

/-! ## State dicts of losses: C82, C83 -/

section

variable {N : Type u} {O : Type v} {L : Type w}

/-- **C83** (losses). Without `load_weights` the network stays as it is, without `load_optimizers` the optimizer, and
without `load_hparams` the logs; whether loading succeeds or raises. The learning rate schedule stays in any case. -/
theorem C83_loss_flags (s : LossSaved N O) (flags : LoadFlags) (c : LossCb N O L) :
    (flags.weights = false → (c.loadStateDict s flags).1.network = c.network) ∧
      (flags.optimizers = false → (c.loadStateDict s flags).1.optimizer = c.optimizer) ∧
      (flags.hparams = false → (c.loadStateDict s flags).1.logs = c.logs) ∧
      (c.loadStateDict s flags).1.schedule = c.schedule := by
  have hlogs : ∀ c : LossCb N O L, (LossCb.loadLogs s flags c).1.network = c.network ∧
      (LossCb.loadLogs s flags c).1.optimizer = c.optimizer ∧ (LossCb.loadLogs s flags c).1.schedule = c.schedule ∧
      (flags.hparams = false → (LossCb.loadLogs s flags c).1.logs = c.logs) := by
    intro c
    unfold LossCb.loadLogs
    split
    · rename_i h; exact ⟨rfl, rfl, rfl, fun h' => by rw [h] at h'; simp at h'⟩
    · exact ⟨rfl, rfl, rfl, fun _ => rfl⟩
  have hopt : ∀ c : LossCb N O L, (LossCb.loadOptimizer s flags c).1.network = c.network ∧
      (flags.optimizers = false → (LossCb.loadOptimizer s flags c).1.optimizer = c.optimizer) ∧
      (LossCb.loadOptimizer s flags c).1.schedule = c.schedule ∧
      (flags.hparams = false → (LossCb.loadOptimizer s flags c).1.logs = c.logs) := by
    intro c
    unfold LossCb.loadOptimizer
    split
    · rename_i h
      split
      · exact ⟨rfl, fun _ => rfl, rfl, fun _ => rfl⟩
      · obtain ⟨h1, h2, h3, h4⟩ := hlogs { c with optimizer := ‹O› }
        exact ⟨h1, fun h' => by rw [h] at h'; simp at h', h3, h4⟩
    · obtain ⟨h1, h2, h3, h4⟩ := hlogs c
      exact ⟨h1, fun _ => h2, h3, h4⟩
  unfold LossCb.loadStateDict
  split
  · rename_i h
    split
    · exact ⟨fun _ => rfl, fun _ => rfl, fun _ => rfl, rfl⟩
    · obtain ⟨h1, h2, h3, h4⟩ := hopt { c with network := some ‹N› }
      exact ⟨fun h' => by simp [h'] at h, h2, h4, h3⟩
  · obtain ⟨h1, h2, h3, h4⟩ := hopt c
    exact ⟨fun _ => h1, h2, h4, h3⟩

/-- **C83** fails for the alpha loss: without any flag, loading the state of another one with another alpha changes
alpha. -/
theorem C83_false {A : Type u} {O : Type v} {L : Type w} {E : Type x} (c c' : AlphaCb A O L E)
    (h : c'.lnAlpha ≠ c.lnAlpha) :
    (c.loadStateDict c'.stateDict ⟨false, false, false⟩).2 = .ok () ∧
      (c.loadStateDict c'.stateDict ⟨false, false, false⟩).1.lnAlpha ≠ c.lnAlpha := by
  refine ⟨?_, h⟩
  unfold AlphaCb.loadStateDict AlphaCb.stateDict LossCb.loadStateDict LossCb.loadOptimizer LossCb.loadLogs
  simp

/-- **C83_partial**. For the alpha loss the flags for the optimizer and the logs are obeyed. Missing: the weight, see
`C83_false`. -/
theorem C83_alpha_partial {A : Type u} {O : Type v} {L : Type w} {E : Type x} (s : LossSaved A O) (flags : LoadFlags)
    (c : AlphaCb A O L E) :
    (flags.optimizers = false → (c.loadStateDict s flags).1.base.optimizer = c.base.optimizer) ∧
      (flags.hparams = false → (c.loadStateDict s flags).1.base.logs = c.base.logs) := by
  unfold AlphaCb.loadStateDict
  split
  · exact ⟨fun _ => rfl, fun _ => rfl⟩
  · obtain ⟨-, h2, h3, -⟩ := C83_loss_flags { s with network := none } flags c.base
    exact ⟨h2, h3⟩

/-- **C82** fails: a loss that is loaded from a state dict, with whatever flags, keeps its own learning rate schedule. No state dict
at all brings the one of the original back. -/
theorem C82_false (c fresh : LossCb N O L) (s : LossSaved N O) (flags : LoadFlags) (h : fresh.schedule ≠ c.schedule) :
    (fresh.loadStateDict s flags).1.schedule ≠ c.schedule := by
  rw [(C83_loss_flags _ _ _).2.2.2]
  exact h

/-- **C82** fails for the alpha loss: neither the target entropy schedule nor the learning rate schedule of the original comes back,
from whatever state dict. -/
theorem C82_false_alpha {A : Type u} {O : Type v} {L : Type w} {E : Type x} (c fresh : AlphaCb A O L E) (s : LossSaved A O)
    (flags : LoadFlags) (h : fresh.entropy ≠ c.entropy ∨ fresh.base.schedule ≠ c.base.schedule) :
    (fresh.loadStateDict s flags).1 ≠ c := by
  intro hc
  have h1 : (fresh.loadStateDict s flags).1.entropy = fresh.entropy ∧
      (fresh.loadStateDict s flags).1.base.schedule = fresh.base.schedule := by
    unfold AlphaCb.loadStateDict
    split
    · exact ⟨rfl, rfl⟩
    · exact ⟨rfl, (C83_loss_flags { s with network := none } flags fresh.base).2.2.2⟩
  rw [hc] at h1
  rcases h with h | h
  · exact h h1.1.symm
  · exact h h1.2.symm

/-- **C82_partial**. Weights and optimizer come back exactly, in a loss that has not logged a windowed scalar itself
(with one, loading raises: `C48_false_used`; but only after weights and optimizer are loaded). Missing: the
schedules, which are not saved, and the windows of the logs, see `C48`. -/
theorem C82_partial (c fresh : LossCb N O L) (hn : fresh.network.isSome = c.network.isSome) :
    (fresh.loadStateDict c.stateDict ⟨true, true, true⟩).1.network = c.network ∧
      (fresh.loadStateDict c.stateDict ⟨true, true, true⟩).1.optimizer = c.optimizer ∧
      (fresh.logs.windowed = [] → (fresh.loadStateDict c.stateDict ⟨true, true, true⟩).2 = .ok ()) := by
  unfold LossCb.loadStateDict LossCb.stateDict
  cases hc : c.network with
  | none =>
    rw [hc] at hn
    have : fresh.network = none := by simpa using hn
    simp only [this, Option.isSome_none, Bool.false_and, Bool.false_eq_true, if_false]
    exact ⟨this, rfl, fun h => by simp [LossCb.loadOptimizer, LossCb.loadLogs, Res.lift, Logs.loadStateDict, h, Logs.rebuildAll]⟩
  | some n =>
    rw [hc] at hn
    simp only [hn, Option.isSome_some, Bool.and_self, if_true]
    exact ⟨rfl, rfl, fun h => by simp [LossCb.loadOptimizer, LossCb.loadLogs, Res.lift, Logs.loadStateDict, h, Logs.rebuildAll]⟩

/-- The same for the alpha loss. -/
theorem C82_alpha_partial {A : Type u} {O : Type v} {L : Type w} {E : Type x} (c fresh : AlphaCb A O L E)
    (hn : fresh.base.network = none) (hn' : c.base.network = none) :
    (fresh.loadStateDict c.stateDict ⟨true, true, true⟩).1.lnAlpha = c.lnAlpha ∧
      (fresh.loadStateDict c.stateDict ⟨true, true, true⟩).1.base.optimizer = c.base.optimizer := by
  refine ⟨rfl, ?_⟩
  have h := (C82_partial c.base fresh.base (by rw [hn, hn'])).2.1
  unfold AlphaCb.loadStateDict AlphaCb.stateDict
  have : ({ network := none, optimizer := c.base.stateDict.optimizer, logs := c.base.stateDict.logs } : LossSaved A O)
      = c.base.stateDict := by
    simp [LossCb.stateDict, hn']
  simp only [Res.lift_fst, this]
  exact h

end

/-! Concrete losses: schedules are step counts. -/

example : ((LossCb.mk (some 1) "sgd" 0 (Logs.new 250)).loadStateDict
      (LossCb.mk (some 7) "adam" 500 ((Logs.new 250).logScalar "loss" 3)).stateDict ⟨true, true, true⟩).1 =
    LossCb.mk (some 7) "adam" 0 ((Logs.new 250).logScalar "loss" 3) := rfl

example : ((AlphaCb.mk (LossCb.mk none "adam" 0 (Logs.new 250)) (-1 : Int) 0).loadStateDict
      (AlphaCb.mk (LossCb.mk none "adam" 500 (Logs.new 250)) (-3) 500).stateDict ⟨false, false, false⟩).1.lnAlpha = -3 := rfl

end Verif
