import Verif.Model.Importer
import Verif.Props.AtomicStore
import Verif.Props.Serialize

/-!
# C114: a run goes on from the last export
-/

namespace Verif

namespace Importer

open Verif.Props

variable {B : Type} {V : Type u}

/-! ## Specification -/

namespace Spec

/-- The last table that was exported to a path -/
def last (path : String) (es : List (Export V)) : Option (Table V) :=
  ((es.filter fun e => e.path = path).map Export.table).getLast?

/-- Temporary files have names that nothing else has. -/
def Tmps (path : String) (es : List (Export V)) : Prop :=
  ∀ e ∈ es, e.tmp ≠ path ++ ".zip" ∧ ∀ e' ∈ es, e.tmp ≠ e'.path ++ ".zip"

/-- A memory that a run had built, with the columns, size and strategies of another -/
def Like (columns : List Column) (lk : String) (t1 t : Table V) : Prop :=
  (∃ m t0 ops, Created columns m lk t0 ∧ Run t0 ops t) ∧ (∃ d, t.stored lk = some d) ∧
    (∀ id ∈ t.lengths.keys, 0 ≤ id) ∧ t.maxlen = t1.maxlen ∧ t.sampler.kind = t1.sampler.kind ∧
    t.ejector.kind = t1.ejector.kind

end Spec

/-! ## The disk -/

theorem quiet_store (pieces : Archive V → List (List B)) (started : List (List B)) {t : Table V} {a : Archive V}
    (hs : t.serialize = .ok a) {tmp path : String} (hne : tmp ≠ path ++ ".zip") {d0 : Disk B} (hq : Quiet d0) (buf : List B) :
    Quiet (Eff.runAll (storeEffects pieces started tmp path t) (d0, buf)).1 := by
  unfold storeEffects
  rw [hs]
  obtain ⟨d, b, h1, h2, h3⟩ := (storeOk_states hne (pieces a) hq buf (fun _ => True)
    (fun _ => trivial) (fun _ _ _ => trivial) (fun _ _ _ => trivial)).2
  simp only [h1]
  refine ⟨h3, fun p i hp => ?_, fun p i hp => ?_⟩
  · rw [h2.dir] at hp
    by_cases hpt : p = path ++ ".zip"
    · simp only [hpt, if_true, Option.some.injEq] at hp
      rw [← hp, h2.new]
    · simp only [hpt, if_false] at hp
      by_cases hpm : p = tmp
      · simp [hpm] at hp
      · simp only [hpm, if_false] at hp
        rw [h2.files i (by have := hq.fresh _ _ hp; omega)]
        exact hq.synced _ _ hp
  · rw [h2.next]
    rw [h2.dir] at hp
    by_cases hpt : p = path ++ ".zip"
    · simp only [hpt, if_true, Option.some.injEq] at hp
      omega
    · simp only [hpt, if_false] at hp
      by_cases hpm : p = tmp
      · simp [hpm] at hp
      · simp only [hpm, if_false] at hp
        have := hq.fresh _ _ hp
        omega

theorem read_store (pieces : Archive V → List (List B)) (started : List (List B)) {t : Table V} {a : Archive V}
    (hs : t.serialize = .ok a) {tmp path other : String} (hne : tmp ≠ path ++ ".zip") (hot : tmp ≠ other) {d0 : Disk B}
    (hq : Quiet d0) (buf : List B) :
    (Eff.runAll (storeEffects pieces started tmp path t) (d0, buf)).1.read other =
      if other = path ++ ".zip" then some (pieces a).flatten else d0.read other := by
  unfold storeEffects
  rw [hs]
  obtain ⟨d, b, h1, h2, h3⟩ := (storeOk_states hne (pieces a) hq buf (fun _ => True)
    (fun _ => trivial) (fun _ _ _ => trivial) (fun _ _ _ => trivial)).2
  simp only [h1, Disk.read, h2.dir]
  by_cases hp : other = path ++ ".zip"
  · simp [hp, h2.new]
  · simp only [hp, if_false, Ne.symm hot]
    cases hd : d0.dir other with
    | none => rfl
    | some i =>
      have := hq.fresh _ _ hd
      simp [h2.files i (by omega)]

theorem zip_inj {a b : String} (h : a ++ ".zip" = b ++ ".zip") : a = b := by
  have := congrArg String.toList h
  simp only [String.toList_append] at this
  exact String.toList_inj.1 (List.append_cancel_right this)

/-- After complete exports the disk is quiet, and each file holds the last export to it. -/
theorem exportAll_spec (pieces : Archive V → List (List B)) (started : List (List B)) (path : String) (es : List (Export V))
    (ht : Spec.Tmps path es) (hs : ∀ e ∈ es, ∃ a, e.table.serialize = .ok a) {d0 : Disk B} (hq : Quiet d0) (buf : List B) :
    Quiet (exportAll pieces started es (d0, buf)).1 ∧
      (Spec.last path es = none → (exportAll pieces started es (d0, buf)).1.read (path ++ ".zip") = d0.read (path ++ ".zip")) ∧
      ∀ t a, Spec.last path es = some t → t.serialize = .ok a →
        (exportAll pieces started es (d0, buf)).1.read (path ++ ".zip") = some (pieces a).flatten := by
  induction es using snocInduction with
  | nil => exact ⟨hq, fun _ => rfl, fun t a h => by simp [Spec.last] at h⟩
  | snoc es e ih =>
    have ht' : Spec.Tmps path es := fun x hx =>
      ⟨(ht x (List.mem_append_left _ hx)).1, fun y hy => (ht x (List.mem_append_left _ hx)).2 y (List.mem_append_left _ hy)⟩
    obtain ⟨i1, i2, i3⟩ := ih ht' fun x hx => hs x (List.mem_append_left _ hx)
    have he : e ∈ es ++ [e] := by simp
    obtain ⟨b, hb⟩ := hs e he
    have hne := (ht e he).2 e he
    have hrun : exportAll pieces started (es ++ [e]) (d0, buf) =
        Eff.runAll (storeEffects pieces started e.tmp e.path e.table) (exportAll pieces started es (d0, buf)) := by
      simp [exportAll]
    rw [hrun]
    have hread := read_store pieces started hb hne (ht e he).1 i1 (exportAll pieces started es (d0, buf)).2
    refine ⟨quiet_store pieces started hb hne i1 _, fun h => ?_, fun t a h hta => ?_⟩
    · rw [hread]
      by_cases hp : e.path = path
      · simp [Spec.last, List.filter_append, hp] at h
      · rw [if_neg fun hc => hp (zip_inj hc).symm]
        exact i2 (by simpa [Spec.last, List.filter_append, hp] using h)
    · rw [hread]
      by_cases hp : e.path = path
      · simp only [Spec.last, List.filter_append, List.map_append] at h
        simp only [List.filter_cons, hp, decide_true, if_true, List.filter_nil, List.map_cons, List.map_nil,
          List.getLast?_append, List.getLast?_singleton, Option.some_or, Option.some.injEq] at h
        subst h
        rw [hb] at hta
        rw [hp, if_pos rfl, Except.ok.inj hta]
      · rw [if_neg fun hc => hp (zip_inj hc).symm]
        exact i3 t a (by simpa [Spec.last, List.filter_append, hp] using h) hta

/-! ## Paths -/

theorem restorePath_none (dir name : String) : restorePath dir name none = exportPath dir name := rfl

theorem restorePath_empty (dir name : String) : restorePath dir name (some "") = exportPath dir name := by
  simp [restorePath, exportPath]

/-- **C114.** Two memories with different names never share a file of the directory (names that begin with a slash are
absolute paths). -/
theorem C114_paths (dir m n : String) (hm : m.toList.head? ≠ some '/') (hn : n.toList.head? ≠ some '/')
    (h : exportPath dir m = exportPath dir n) : m = n := by
  have hd : ∀ x : String, x.toList.head? ≠ some '/' → (x ++ "_export").toList.head? ≠ some '/' := by
    intro x hx
    rw [String.toList_append]
    cases hl : x.toList with
    | nil => decide
    | cons c cs => rw [hl] at hx; simpa using hx
  simp only [exportPath, join, hd m hm, hd n hn, if_false] at h
  have key : ∀ p : String, p ++ (m ++ "_export") = p ++ (n ++ "_export") → m = n := by
    intro p hp
    have := congrArg String.toList hp
    simp only [String.toList_append] at this
    exact String.toList_inj.1 (List.append_cancel_right (List.append_cancel_left this))
  by_cases hc : dir.toList = [] ∨ dir.toList.getLast? = some '/'
  · simp only [hc, if_true] at h; exact key _ h
  · simp only [hc, if_false] at h; exact key _ h

/-- The names between the slashes of a path, from left to right; `acc` is the one that has begun. -/
def Spec.parts : List Char → List Char → List (List Char)
  | acc, [] => if acc = [] then [] else [acc]
  | acc, c :: cs => if c = '/' then (if acc = [] then Spec.parts [] cs else acc :: Spec.parts [] cs) else Spec.parts (acc ++ [c]) cs

/-- The path begins at the root. -/
def Spec.Absolute (p : String) : Prop := p.toList.head? = some '/'

/-- The file that a name means in a directory: with an absolute name the directory plays no role; else one gets there by going
into the directory and then along the name. -/
def Spec.Leads (dir name p : String) : Prop :=
  (Spec.Absolute name → p = name) ∧
  (¬ Spec.Absolute name → Spec.parts [] p.toList = Spec.parts [] dir.toList ++ Spec.parts [] name.toList ∧
    (dir ≠ "" → (Spec.Absolute p ↔ Spec.Absolute dir)) ∧ (dir = "" → p = name))

theorem parts_slash (acc a b : List Char) :
    Spec.parts acc (a ++ '/' :: b) = Spec.parts acc a ++ Spec.parts [] b := by
  induction a generalizing acc with
  | nil => by_cases h : acc = [] <;> simp [Spec.parts, h]
  | cons c a ih =>
    rw [List.cons_append]
    by_cases hc : c = '/'
    · by_cases h : acc = [] <;> simp [Spec.parts, h, hc, ih]
    · simp only [Spec.parts, hc, if_false]; exact ih _

theorem parts_ends (a b : List Char) (h : a.getLast? = some '/') :
    Spec.parts [] (a ++ b) = Spec.parts [] a ++ Spec.parts [] b := by
  obtain ⟨a', rfl⟩ : ∃ a', a = a' ++ ['/'] := by
    obtain ⟨l, hl⟩ := List.getLast?_eq_some_iff.1 h
    exact ⟨l, hl⟩
  rw [List.append_assoc, List.cons_append, List.nil_append, parts_slash, parts_slash]
  simp [Spec.parts]

theorem join_leads (dir name : String) : Spec.Leads dir name (join dir name) := by
  unfold Spec.Leads Spec.Absolute join
  refine ⟨fun h => by rw [if_pos h], fun h => ?_⟩
  rw [if_neg h]
  have hne : dir ≠ "" → dir.toList ≠ [] := fun hd he => hd (String.toList_inj.1 (by rw [he]; rfl))
  have hhead : ∀ (l r : List Char), l ≠ [] → (l ++ r).head? = l.head? := by
    intro l r hl
    cases l with
    | nil => exact absurd rfl hl
    | cons c l => rfl
  by_cases h1 : dir.toList = [] ∨ dir.toList.getLast? = some '/'
  · rw [if_pos h1]
    refine ⟨?_, fun hd => ?_, fun hd => ?_⟩
    · rw [String.toList_append]
      rcases h1 with h1 | h1
      · rw [h1]; simp [Spec.parts]
      · exact parts_ends _ _ h1
    · rw [String.toList_append, hhead _ _ (hne hd)]
    · subst hd; exact String.toList_inj.1 (by rw [String.toList_append]; rfl)
  · rw [if_neg h1]
    refine ⟨?_, fun hd => ?_, fun hd => ?_⟩
    · rw [String.toList_append, String.toList_append, List.append_assoc]
      exact parts_slash _ _ _
    · rw [String.toList_append, String.toList_append, List.append_assoc, hhead _ _ (hne hd)]
    · subst hd; exact absurd (Or.inl rfl) h1

/-- **C114.** The importer reads the file that the given name, or by default the name of the memory with "_export", means in
the given directory. -/
theorem C114_where (dir name : String) (override : Option String) :
    (∀ f, override = some f → f ≠ "" → Spec.Leads dir f (restorePath dir name override)) ∧
    (override = none ∨ override = some "" → Spec.Leads dir (name ++ "_export") (restorePath dir name override)) ∧
    Spec.Leads dir (name ++ "_export") (exportPath dir name) := by
  refine ⟨?_, ?_, join_leads _ _⟩
  · rintro f rfl hf
    simp only [restorePath, if_neg hf]
    exact join_leads _ _
  · rintro (rfl | rfl)
    · exact join_leads _ _
    · simp only [restorePath, if_pos]; exact join_leads _ _

example : Spec.parts [] "/data//runs/".toList = ["data".toList, "runs".toList] ∧
    Spec.parts [] (restorePath "/data/runs" "m" none).toList = ["data".toList, "runs".toList, "m_export".toList] ∧
    restorePath "/data/runs" "m" (some "/tmp/x") = "/tmp/x" := by decide +kernel

/-! ## C114 -/

/-- **C114.** Exports are made one after the other, into any files; the process is killed or the power fails at any
point of the next one. The importer then finds no file, if none was exported to its path and none was there before; else
it restores a memory from an archive of the last complete export to its path, or of the one that was being made. -/
theorem C114_import (pieces : Archive V → List (List B)) (started : List (List B)) (decode : List B → Option (Archive V))
    (hdec : ∀ a, decode (pieces a).flatten = some a) (dir name : String) (es : List (Export V)) (x : Export V)
    (ht : Spec.Tmps (exportPath dir name) (es ++ [x])) (hs : ∀ e ∈ es, ∃ a, e.table.serialize = .ok a)
    {d0 : Disk B} (hq : Quiet d0) (h0 : d0.read (exportPath dir name ++ ".zip") = none) (buf : List B)
    (htmp : (exportAll pieces started es (d0, buf)).1.dir x.tmp = none) {pre : List (Eff B)}
    (hpre : pre <+: storeEffects pieces started x.tmp x.path x.table) {c : Crash} {d' : Disk B}
    (hc : AfterCrash c (Eff.runAll pre (exportAll pieces started es (d0, buf))).1 d') (override : Option String)
    (ho : override = none ∨ override = some "") (draws : List Nat) (t1 : Table V) :
    (Spec.last (exportPath dir name) es = none ∧ restoreState decode d' dir name override draws t1 = (t1, .error .osError)) ∨
    (∃ t a, Spec.last (exportPath dir name) es = some t ∧ t.serialize = .ok a ∧
      restoreState decode d' dir name override draws t1 = Table.deserialize a draws t1) ∨
    (∃ a, x.path = exportPath dir name ∧ x.table.serialize = .ok a ∧
      restoreState decode d' dir name override draws t1 = Table.deserialize a draws t1) := by
  have hx : x ∈ es ++ [x] := by simp
  have ht' : Spec.Tmps (exportPath dir name) es := fun e he =>
    ⟨(ht e (List.mem_append_left _ he)).1, fun y hy => (ht e (List.mem_append_left _ he)).2 y (List.mem_append_left _ hy)⟩
  obtain ⟨hqe, hnone, hsome⟩ := exportAll_spec pieces started (exportPath dir name) es ht' hs hq buf
  have hpath : restorePath dir name override = exportPath dir name := by
    rcases ho with rfl | rfl
    · rfl
    · exact restorePath_empty _ _
  have done : ∀ a, d'.read (exportPath dir name ++ ".zip") = some (pieces a).flatten →
      restoreState decode d' dir name override draws t1 = Table.deserialize a draws t1 := by
    intro a h
    simp only [restoreState, hpath, h, hdec]
  -- what the file holds
  have old : d'.read (exportPath dir name ++ ".zip") =
        (exportAll pieces started es (d0, buf)).1.read (exportPath dir name ++ ".zip") ∨
      ∃ a, x.path = exportPath dir name ∧ x.table.serialize = .ok a ∧
        d'.read (exportPath dir name ++ ".zip") = some (pieces a).flatten := by
    by_cases hp : x.path = exportPath dir name
    · have hne := (ht x hx).1
      rw [← hp] at hne ⊢
      rcases C23_never_half_written pieces started x.table hne hqe htmp _ hpre hc with h | ⟨a, h1, h2⟩
      · exact .inl h
      · exact .inr ⟨a, rfl, h1, h2⟩
    · exact .inl (C23_other_files_untouched pieces started x.table ((ht x hx).2 x hx) (fun h => hp (zip_inj h).symm)
        (ht x hx).1.symm hqe htmp _ hpre hc)
  rcases old with h | ⟨a, h1, h2, h3⟩
  · cases hl : Spec.last (exportPath dir name) es with
    | none =>
      refine .inl ⟨rfl, ?_⟩
      rw [hnone hl, h0] at h
      simp only [restoreState, hpath, h]
    | some t =>
      have hmem : ∃ e ∈ es, e.table = t := by
        have := List.mem_of_getLast? hl
        obtain ⟨e, he, rfl⟩ := List.mem_map.1 this
        exact ⟨e, (List.mem_filter.1 he).1, rfl⟩
      obtain ⟨e, he, rfl⟩ := hmem
      obtain ⟨a, ha⟩ := hs e he
      refine .inr (.inl ⟨e.table, a, rfl, ha, done a ?_⟩)
      rw [h, hsome _ a hl ha]
  · exact .inr (.inr ⟨a, h1, h2, done a h3⟩)

/-- **C114.** When every memory exported to the path is one that a run had built (same columns, size and strategies as
the memory to be restored), the importer restores the memory of the last complete export, or of the one that was being
made: the same contents, and the same behaviour from then on. Only with no export to its path does it raise. -/
theorem C114_resume {columns : List Column} {lk : String} {t1 : Table V} (hc1 : Created columns t1.maxlen lk t1)
    (pieces : Archive V → List (List B)) (started : List (List B)) (decode : List B → Option (Archive V))
    (hdec : ∀ a, decode (pieces a).flatten = some a) (dir name : String) (es : List (Export V)) (x : Export V)
    (hall : ∀ e ∈ es ++ [x], e.path = exportPath dir name → Spec.Like columns lk t1 e.table)
    (ht : Spec.Tmps (exportPath dir name) (es ++ [x])) (hs : ∀ e ∈ es, ∃ a, e.table.serialize = .ok a)
    {d0 : Disk B} (hq : Quiet d0) (h0 : d0.read (exportPath dir name ++ ".zip") = none) (buf : List B)
    (htmp : (exportAll pieces started es (d0, buf)).1.dir x.tmp = none) {pre : List (Eff B)}
    (hpre : pre <+: storeEffects pieces started x.tmp x.path x.table) {c : Crash} {d' : Disk B}
    (hc : AfterCrash c (Eff.runAll pre (exportAll pieces started es (d0, buf))).1 d') (override : Option String)
    (ho : override = none ∨ override = some "") (draws : List Nat) :
    (Spec.last (exportPath dir name) es = none ∧ restoreState decode d' dir name override draws t1 = (t1, .error .osError)) ∨
    ∃ t, (Spec.last (exportPath dir name) es = some t ∨ x.path = exportPath dir name ∧ x.table = t) ∧
      ∃ t2, restoreState decode d' dir name override draws t1 = (t2, .ok ()) ∧ SameContents t t2 ∧
        ∀ later : List (Op V),
          (∀ o ∈ later, ∀ id seq ds, o = .add id seq ds → fitsInt64 (Table.wrapId id) = true) →
          (∀ t', Run t later t' → ∃ t2', Run t2 later t2' ∧ SameContents t' t2') ∧
          (∀ t2', Run t2 later t2' → ∃ t', Run t later t' ∧ SameContents t' t2') := by
  have go : ∀ e ∈ es ++ [x], e.path = exportPath dir name → ∀ a, e.table.serialize = .ok a →
      ∃ t2, Table.deserialize a draws t1 = (t2, .ok ()) ∧ SameContents e.table t2 ∧
        ∀ later : List (Op V),
          (∀ o ∈ later, ∀ id seq ds, o = .add id seq ds → fitsInt64 (Table.wrapId id) = true) →
          (∀ t', Run e.table later t' → ∃ t2', Run t2 later t2' ∧ SameContents t' t2') ∧
          (∀ t2', Run t2 later t2' → ∃ t', Run e.table later t' ∧ SameContents t' t2') := by
    intro e he hp a ha
    obtain ⟨⟨m, t0, ops, k1, k2⟩, ⟨d, k3⟩, k4, k5, k6, k7⟩ := hall e he hp
    obtain ⟨t2, h1, h2, _, _, _, _, h3⟩ := C21_round_trip k1 k2 k3 k4 ha (k5 ▸ hc1) k6.symm k7.symm draws
    exact ⟨t2, h1, h2, h3⟩
  rcases C114_import pieces started decode hdec dir name es x ht hs hq h0 buf htmp hpre hc override ho draws t1 with
    h | ⟨t, a, h1, h2, h3⟩ | ⟨a, h1, h2, h3⟩
  · exact .inl h
  · right
    obtain ⟨e, he, rfl⟩ := List.mem_map.1 (List.mem_of_getLast? h1)
    obtain ⟨he1, he2⟩ := List.mem_filter.1 he
    obtain ⟨t2, k1, k2, k3⟩ := go e (List.mem_append_left _ he1) (by simpa using he2) a h2
    exact ⟨e.table, .inl h1, t2, h3.trans k1, k2, k3⟩
  · right
    obtain ⟨t2, k1, k2, k3⟩ := go x (by simp) h1 a h2
    exact ⟨x.table, .inr ⟨h1, rfl⟩, t2, h3.trans k1, k2, k3⟩

/-! ### A case: two memories; the second export of the first is interrupted -/

namespace Ex

/-- a file system whose unit is an archive -/
def pieces (a : Archive Nat) : List (List (Archive Nat)) := [[], [a]]
def decode (bs : List (Archive Nat)) : Option (Archive Nat) := bs.head?
def disk : Disk (Archive Nat) := ⟨fun _ => none, fun _ => ([], true), [], 0⟩

theorem quiet : Quiet disk := ⟨rfl, fun _ _ h => by simp [disk] at h, fun _ _ h => by simp [disk] at h⟩

def es : List (Export Nat) := [⟨"run/m_export", "tmp1", Props.Ex.t3⟩, ⟨"run/n_export", "tmp2", Props.Ex.t2⟩]
def x : Export Nat := ⟨"run/m_export", "tmp3", Props.Ex.t2⟩

end Ex

example : exportPath "run" "m" = "run/m_export" ∧ exportPath "run/" "m" = "run/m_export" ∧ exportPath "" "m" = "m_export" ∧
    restorePath "run" "m" (some "old.zip") = "run/old.zip" ∧ restorePath "run" "m" (some "/tmp/old") = "/tmp/old" := by
  decide +kernel

example : ((Spec.last (exportPath "run" "m") Ex.es).map Table.lengths) = some Props.Ex.t3.lengths ∧
    Props.Ex.t3.lengths ≠ Props.Ex.t2.lengths := by decide +kernel

-- interrupted before its sixth effect, the export leaves the memory of the one before it to be read, after that its own
example : (List.range 9).map (fun k => (restoreState Ex.decode (Eff.runAll
      ((storeEffects Ex.pieces [] Ex.x.tmp Ex.x.path Ex.x.table).take k) (exportAll Ex.pieces [] Ex.es (Ex.disk, []))).1
      "run" "m" none [] Props.Ex.t0).1.lengths) =
    List.replicate 6 [(8, 3), (9, 2)] ++ List.replicate 3 [(7, 2), (8, 3)] := by decide +kernel

example := C114_import Ex.pieces [] Ex.decode (fun _ => rfl) "run" "m" Ex.es Ex.x
  (by unfold Spec.Tmps; decide +kernel)
  (fun e he => by
    simp only [Ex.es, List.mem_cons, List.not_mem_nil, or_false] at he
    rcases he with rfl | rfl
    · exact ⟨_, Props.ExS.stores⟩
    · exact ⟨match Props.Ex.t2.serialize with | .ok a => a | .error _ => ⟨[], none, none, [], [], []⟩, by decide +kernel⟩)
  Ex.quiet rfl [] (by decide +kernel) (List.take_prefix 4 _) (c := .killed) rfl none (.inl rfl) [] Props.Ex.t0

end Importer

end Verif
