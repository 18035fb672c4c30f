import Verif.Model.LegacyFill
import Verif.Model.Table
import Verif.Lemmas.Dict
import Mathlib.Data.List.Basic

/-!
# C97: filling a table from a legacy dump
-/

namespace Verif

namespace LegacyFill

variable {V : Type u} {T : Type w}

/-- One row of a dump: what was seen, done, got and seen next. -/
structure Row (V : Type u) where
  obs : V
  action : V × V
  reward : V
  next : V
  done : Bool
  deriving DecidableEq, Repr

/-- The dump that holds these rows. -/
def dumpOf (rows : List (Row V)) : Dump V :=
  ⟨rows.map Row.done, rows.flatMap fun r => [r.action.1, r.action.2], rows.map Row.reward, rows.map Row.next, rows.map Row.obs⟩

/-- The ended episodes of the rows, each with the row that follows it, if any; `acc` are the rows of the first one so far. -/
def episodes : List (Row V) → List (Row V) → List (List (Row V) × Option (Row V))
  | _, [] => []
  | acc, r :: rest => if r.done then (acc ++ [r], rest.head?) :: episodes [] rest else episodes (acc ++ [r]) rest

/-- The columns of an episode with the observation `last` at its end. -/
def columns (f : Flags) (pair : V → V → V) (ep : List (Row V)) (last : V) : Dict String (List V) :=
  (if f.obs then [("obs", ep.map Row.obs ++ [last])] else []) ++
  (if f.actions then [("actions", ep.map fun r => pair r.action.1 r.action.2)] else []) ++
  (if f.rewards then [("rewards", ep.map Row.reward)] else [])

/-- What is loaded: the `j`-th episode of the dump, if it has more than ten rows, under the identity `-(j + 1)`; `j` counts. -/
def loadAll (f : Flags) (pair : V → V → V) (mem : Int → Dict String (List V) → T → Res T Unit) :
    Nat → List (List (Row V) × Option (Row V)) → T → Res T Unit
  | _, [], t => (t, .ok ())
  | j, e :: rest, t =>
    if e.1.length ≤ 10 then loadAll f pair mem (j + 1) rest t
    else match e.2 with
      | none => (t, .error .indexError)
      | some r => (mem (-((j : Int) + 1)) (columns f pair e.1 r.next) t).andThen fun t _ => loadAll f pair mem (j + 1) rest t

theorem reshape2_flat (pair : V → V → V) (rows : List (Row V)) :
    reshape2 pair (rows.flatMap fun r => [r.action.1, r.action.2]) = .ok (rows.map fun r => pair r.action.1 r.action.2) := by
  induction rows with
  | nil => rfl
  | cons r rows ih => simp only [List.flatMap_cons, List.cons_append, List.nil_append, reshape2, ih, List.map_cons]

theorem slice_append {α : Type u} (a b c : List α) : slice (a ++ b ++ c) a.length (a.length + b.length) = b := by
  unfold slice
  rw [List.append_assoc, List.drop_left, Nat.add_sub_cancel_left, List.take_left]

theorem flat_length (rows : List (Row V)) : (rows.flatMap fun r => [r.action.1, r.action.2]).length = rows.length * 2 := by
  induction rows with
  | nil => rfl
  | cons r rows ih => simp only [List.flatMap_cons, List.length_append, ih, List.length_cons, List.length_nil]; omega

theorem sequence_eq (f : Flags) (pair : V → V → V) (pre acc : List (Row V)) (r : Row V) (rest : List (Row V))
    (hacc : ∀ x ∈ acc, x.done = false) (hr : r.done = true) :
    sequence f pair (dumpOf (pre ++ (acc ++ [r]) ++ rest)) pre.length (pre.length + acc.length) =
      match rest.head? with
      | none => .error .indexError
      | some x => .ok (columns f pair (acc ++ [r]) x.next) := by
  have hs : ∀ {β : Type u} (g : Row V → β), slice ((pre ++ (acc ++ [r]) ++ rest).map g) pre.length (pre.length + acc.length + 1) =
      (acc ++ [r]).map g := by
    intro β g
    have := slice_append (pre.map g) ((acc ++ [r]).map g) (rest.map g)
    rw [List.length_map, List.length_map, List.length_append, List.length_singleton, ← Nat.add_assoc] at this
    rw [List.map_append, List.map_append, this]
  have hd : slice ((pre ++ (acc ++ [r]) ++ rest).map Row.done) pre.length (pre.length + acc.length + 1) =
      (acc ++ [r]).map Row.done := by
    have := slice_append (pre.map Row.done) ((acc ++ [r]).map Row.done) (rest.map Row.done)
    rw [List.length_map, List.length_map, List.length_append, List.length_singleton, ← Nat.add_assoc] at this
    rw [List.map_append, List.map_append, this]
  have ha : slice ((pre ++ (acc ++ [r]) ++ rest).flatMap fun r => [r.action.1, r.action.2]) (pre.length * 2)
      ((pre.length + acc.length + 1) * 2) = (acc ++ [r]).flatMap fun r => [r.action.1, r.action.2] := by
    have := slice_append (pre.flatMap fun r => [r.action.1, r.action.2]) ((acc ++ [r]).flatMap fun r => [r.action.1, r.action.2])
      (rest.flatMap fun r => [r.action.1, r.action.2])
    rw [flat_length, flat_length, List.length_append, List.length_singleton] at this
    rw [List.flatMap_append, List.flatMap_append, show (pre.length + acc.length + 1) * 2 = pre.length * 2 + (acc.length + 1) * 2 by omega,
      this]
  have hn : ((pre ++ (acc ++ [r]) ++ rest).map Row.next)[pre.length + acc.length + 1]? = rest.head?.map Row.next := by
    rw [List.getElem?_map, List.getElem?_append_right (by simp; omega)]
    have : pre.length + acc.length + 1 - (pre ++ (acc ++ [r])).length = 0 := by simp; omega
    rw [this]
    cases rest <;> rfl
  have hfirst : ∃ b, ((acc ++ [r]).map Row.done).head? = some b ∧ (b && decide (((acc ++ [r]).map Row.done).length ≠ 1)) = false := by
    cases acc with
    | nil => exact ⟨r.done, rfl, by simp⟩
    | cons x acc => exact ⟨x.done, rfl, by simp [hacc x (by simp)]⟩
  obtain ⟨b, hb1, hb2⟩ := hfirst
  have hlast : ((acc ++ [r]).map Row.done).getLast? = some true := by
    rw [List.map_append, List.map_singleton, hr]
    simp
  unfold sequence dumpOf
  simp only [hd, hs, ha, hn, hb1, hlast, hb2, Bool.false_eq_true, if_false, Bool.not_true]
  cases rest with
  | nil => rfl
  | cons x rest =>
    simp only [List.head?_cons, Option.map_some, reshape2_flat]
    by_cases h : f.actions = true
    · simp only [h, if_true, outs, columns]
    · simp only [h, if_false, outs, columns, Bool.false_eq_true]

theorem doneIndices_append (i : Nat) (a b : List Bool) :
    doneIndices i (a ++ b) = doneIndices i a ++ doneIndices (i + a.length) b := by
  induction a generalizing i with
  | nil => simp [doneIndices]
  | cons d a ih =>
    rw [List.cons_append, doneIndices, doneIndices, ih, List.length_cons, show i + 1 + a.length = i + (a.length + 1) by omega]
    split <;> simp

theorem loop_eq (f : Flags) (pair : V → V → V) (mem : Int → Dict String (List V) → T → Res T Unit) (rest : List (Row V)) :
    ∀ (pre acc : List (Row V)) (j : Nat) (t : T), (∀ x ∈ acc, x.done = false) →
      loop f pair mem (dumpOf (pre ++ acc ++ rest)) (doneIndices (pre.length + acc.length) (rest.map Row.done)) pre.length
        (-((j : Int) + 1)) t = loadAll f pair mem j (episodes acc rest) t := by
  induction rest with
  | nil => intro pre acc j t _; rfl
  | cons r rest ih =>
    intro pre acc j t hacc
    rw [List.map_cons, doneIndices, episodes]
    by_cases hr : r.done = true
    · rw [if_pos hr, if_pos hr, loop, loadAll]
      have hdump : pre ++ acc ++ r :: rest = (pre ++ (acc ++ [r])) ++ [] ++ rest := by simp
      have hdump2 : pre ++ acc ++ r :: rest = pre ++ (acc ++ [r]) ++ rest := by simp
      have hj : -((j : Int) + 1) - 1 = -(((j + 1 : Nat) : Int) + 1) := by omega
      have hnext : ∀ t, loop f pair mem (dumpOf (pre ++ acc ++ r :: rest)) (doneIndices (pre.length + acc.length + 1)
          (rest.map Row.done)) (pre.length + acc.length + 1) (-((j : Int) + 1) - 1) t =
          loadAll f pair mem (j + 1) (episodes [] rest) t := by
        intro t
        have := ih (pre ++ (acc ++ [r])) [] (j + 1) t (by simp)
        rw [hdump, hj, ← this]
        simp [Nat.add_assoc]
      have hlen : ((pre.length + acc.length : Nat) : Int) - pre.length < 10 ↔ (acc ++ [r]).length ≤ 10 := by
        simp only [List.length_append, List.length_singleton]
        omega
      by_cases hl : (acc ++ [r]).length ≤ 10
      · rw [if_pos (hlen.2 hl), if_pos hl, hnext]
      · rw [if_neg (fun h => hl (hlen.1 h)), if_neg hl, hdump2, sequence_eq f pair pre acc r rest hacc hr]
        cases hh : rest.head? with
        | none => rfl
        | some x =>
          simp only
          rw [← hdump2]
          congr 1
          funext t _
          exact hnext t
    · rw [if_neg hr, if_neg hr]
      have := ih pre (acc ++ [r]) j t (by
        intro x hx
        rcases List.mem_append.1 hx with h | h
        · exact hacc x h
        · rw [List.mem_singleton] at h; subst h; simpa using hr)
      rw [← this]
      simp [Nat.add_assoc]

/-- **C97** The loader hands the ended episodes of the dump to the memory in order, those with more than ten rows, each under its
own negative identity, with its observations, actions and rewards. The last observation is taken from the row after the episode.
(Missing for the full claim: that it is the one that was seen after the episode, see `C97_false`.) -/
theorem C97_partial (f : Flags) (pair : V → V → V) (mem : Int → Dict String (List V) → T → Res T Unit) (rows : List (Row V)) (t : T) :
    fill f pair mem (dumpOf rows) t = loadAll f pair mem 0 (episodes [] rows) t := by
  have := loop_eq f pair mem rows [] [] 0 t (by simp)
  simpa [fill, dumpOf] using this

/-- The episodes are the rows: concatenated they are a prefix of them, each ends at its last row and nowhere before. -/
theorem C97_episodes (acc rows : List (Row V)) (hacc : ∀ x ∈ acc, x.done = false) :
    (∃ tail, acc ++ rows = (episodes acc rows).flatMap Prod.fst ++ tail ∧ ∀ x ∈ tail, x.done = false) ∧
    ∀ e ∈ episodes acc rows, ∃ body last, e.1 = body ++ [last] ∧ last.done = true ∧ ∀ x ∈ body, x.done = false := by
  induction rows generalizing acc with
  | nil => exact ⟨⟨acc, by simp [episodes], hacc⟩, by simp [episodes]⟩
  | cons r rows ih =>
    rw [episodes]
    by_cases hr : r.done = true
    · rw [if_pos hr]
      obtain ⟨⟨tail, h1, h2⟩, h3⟩ := ih [] (by simp)
      refine ⟨⟨tail, ?_, h2⟩, ?_⟩
      · rw [List.nil_append] at h1
        rw [List.flatMap_cons, List.append_assoc, ← h1]
        simp
      · intro e he
        rcases List.mem_cons.1 he with rfl | he
        · exact ⟨acc, r, rfl, hr, hacc⟩
        · exact h3 e he
    · rw [if_neg hr]
      obtain ⟨⟨tail, h1, h2⟩, h3⟩ := ih (acc ++ [r]) (by
        intro x hx
        rcases List.mem_append.1 hx with h | h
        · exact hacc x h
        · rw [List.mem_singleton] at h; subst h; simpa using hr)
      exact ⟨⟨tail, by rw [← h1]; simp, h2⟩, h3⟩

theorem loadAll_last (f : Flags) (pair : V → V → V) (mem : Int → Dict String (List V) → T → Res T Unit) (ep : List (Row V))
    (hep : 10 < ep.length) : ∀ (eps : List (List (Row V) × Option (Row V))) (j : Nat) (t : T),
      (loadAll f pair mem j (eps ++ [(ep, none)]) t).2 ≠ .ok ()
  | [], j, t => by simp [loadAll, Nat.not_le.2 hep]
  | (e, after) :: eps, j, t => by
    rw [List.cons_append, loadAll]
    split
    · exact loadAll_last f pair mem ep hep eps (j + 1) t
    · cases after with
      | none => simp
      | some r =>
        simp only
        rcases hm : mem (-((j : Int) + 1)) (columns f pair e r.next) t with ⟨t', x⟩
        cases x with
        | error err => simp
        | ok u => exact loadAll_last f pair mem ep hep eps (j + 1) t'

theorem episodes_end (r : Row V) (hr : r.done = true) : ∀ (body acc : List (Row V)), (∀ x ∈ body, x.done = false) →
    episodes acc (body ++ [r]) = [(acc ++ body ++ [r], none)]
  | [], acc, _ => by simp [episodes, hr]
  | x :: body, acc, h => by
    rw [List.cons_append, episodes, if_neg (by simp [h x (by simp)]), episodes_end r hr body _ fun y hy => h y (by simp [hy])]
    simp

theorem episodes_last (r : Row V) (hr : r.done = true) (body : List (Row V)) (hb : ∀ x ∈ body, x.done = false) :
    ∀ (pre acc : List (Row V)), ∃ eps ep, episodes acc (pre ++ body ++ [r]) = eps ++ [(ep, none)] ∧ body.length < ep.length
  | [], acc => ⟨[], acc ++ body ++ [r], by rw [List.nil_append, episodes_end r hr body acc hb]; rfl, by simp; omega⟩
  | x :: pre, acc => by
    rw [List.cons_append, List.cons_append, episodes]
    split
    · obtain ⟨eps, ep, h1, h2⟩ := episodes_last r hr body hb pre []
      exact ⟨_ :: eps, ep, by rw [h1]; rfl, h2⟩
    · obtain ⟨eps, ep, h1, h2⟩ := episodes_last r hr body hb pre (acc ++ [x])
      exact ⟨eps, ep, h1, h2⟩

/-- **C97 is false whenever the dump ends with the end of an episode** (of more than ten rows): loading raises. -/
theorem C97_last (f : Flags) (pair : V → V → V) (mem : Int → Dict String (List V) → T → Res T Unit) (pre body : List (Row V))
    (r : Row V) (hr : r.done = true) (hb : ∀ x ∈ body, x.done = false) (hlen : 10 ≤ body.length) (t : T) :
    (fill f pair mem (dumpOf (pre ++ body ++ [r])) t).2 ≠ .ok () := by
  obtain ⟨eps, ep, h1, h2⟩ := episodes_last r hr body hb pre []
  rw [C97_partial, h1]
  exact loadAll_last f pair mem ep (by omega) eps 0 t

/-- **C97** Loading a dump whose memory accepts everything succeeds, and what the memory gets for an episode ends with the
observation that was seen last in it. -/
def C97_claim : Prop :=
  ∀ (rows : List (Row Nat)),
    ∃ got, fill ⟨true, true, true⟩ (fun a b => 1000 * a + b) (fun a s (t : List (Int × Dict String (List Nat))) => (t ++ [(a, s)], .ok ()))
        (dumpOf rows) [] = (got, .ok ()) ∧
      ∀ x ∈ got, ∃ ep ∈ episodes [] rows, ∃ last, ep.1.getLast? = some last ∧
        x.2.get? "obs" = some (ep.1.map Row.obs ++ [last.next])

namespace Ex

/-- An episode of eleven rows. -/
def ep (k : Nat) : List (Row Nat) :=
  (List.range 11).map fun i => ⟨k + i, (1, i), 7, k + i + 1, decide (i = 10)⟩

theorem dones : (ep 0).map Row.done = List.replicate 10 false ++ [true] := by decide +kernel

/-- Two episodes and a short one: the second one's rewards and actions are right, its last observation is the next one's. -/
example : fill ⟨true, true, true⟩ (fun a b => 1000 * a + b) (fun a s (t : List (Int × Dict String (List Nat))) => (t ++ [(a, s)], .ok ()))
    (dumpOf ([⟨90, (0, 0), 0, 91, true⟩] ++ ep 0 ++ [⟨50, (1, 1), 5, 51, true⟩])) [] =
    ([(-2, [("obs", [0, 1, 2, 3, 4, 5, 6, 7, 8, 9, 10, 51]),
      ("actions", [1000, 1001, 1002, 1003, 1004, 1005, 1006, 1007, 1008, 1009, 1010]),
      ("rewards", [7, 7, 7, 7, 7, 7, 7, 7, 7, 7, 7])])], .ok ()) := by decide +kernel

example := C97_episodes [] (ep 0 ++ ep 20) (by simp)
example := C97_last ⟨true, true, true⟩ (fun a b => 1000 * a + b) (fun _ _ (t : Unit) => (t, .ok ())) [] ((ep 0).take 10)
  ⟨10, (1, 10), 7, 11, true⟩ rfl (by decide +kernel) (by decide +kernel) ()

end Ex

theorem C97_false : ¬ C97_claim := fun h => by
  obtain ⟨got, h1, _⟩ := h (Ex.ep 0)
  have h2 : (fill ⟨true, true, true⟩ (fun a b => 1000 * a + b)
      (fun a s (t : List (Int × Dict String (List Nat))) => (t ++ [(a, s)], .ok ())) (dumpOf (Ex.ep 0)) []).2 =
      .error .indexError := by decide +kernel
  rw [h1] at h2
  cases h2

/-! ### Sampling afterwards -/

/-- The sampler is a uniform one. -/
def IsUniform (t : Table V) : Prop := ∃ u, t.sampler = .uniform u

theorem forEach_inv {α : Type v} {body : α → T → Res T Unit} {P : T → Prop} (h : ∀ x t, P t → P (body x t).1) :
    ∀ (xs : List α) (t : T), P t → P (Res.forEach xs body t).1
  | [], _, hp => hp
  | x :: xs, t, hp => by
    rw [Res.forEach]
    have h1 := h x t hp
    rcases hb : body x t with ⟨t', r⟩
    rw [hb] at h1
    cases r with
    | error e => exact h1
    | ok _ => exact forEach_inv h xs t' h1

theorem ejectOne_uniform (id : Int) (t : Table V) (h : IsUniform t) : IsUniform (Table.ejectOne id t).1 := by
  obtain ⟨u, hu⟩ := h
  unfold Table.ejectOne Res.lift
  rcases hd : Table.delAll id t.data with ⟨d, r⟩
  cases r with
  | error e => exact ⟨u, hu⟩
  | ok _ =>
    simp only [Res.andThen_ok]
    cases t.lengths.get? id with
    | none => exact ⟨u, hu⟩
    | some len =>
      simp only
      have hf : ∃ u' r, t.sampler.forget id = (.uniform u', r) := by
        rw [hu]
        exact ⟨_, _, rfl⟩
      obtain ⟨u', r, hf⟩ := hf
      rw [hf]
      cases r with
      | error e => exact ⟨u', rfl⟩
      | ok _ => exact ⟨u', rfl⟩

theorem writeColumn_uniform (id : Int) (nv : String × List V) (t : Table V) (h : IsUniform t) :
    IsUniform (Table.writeColumn id nv t).1 := by
  unfold Table.writeColumn
  split
  · split <;> exact h
  · exact h

theorem ejectCount_uniform (draws : List Nat) (count : Int) (t : Table V) (h : IsUniform t) :
    IsUniform (Table.ejectCount draws count t).1 := by
  unfold Table.ejectCount Res.lift
  rcases he : t.ejector.eject count draws with ⟨ej, r⟩
  simp only [he]
  cases r with
  | error e => exact h
  | ok ids => exact forEach_inv (fun x t ht => ejectOne_uniform x t ht) ids _ h

/-- A table with uniform sampling that accepted an episode under a negative identity, as the loader uses them, cannot be sampled:
the identity does not fit into an int64. -/
theorem C97_unsampleable {t t' : Table V} (hu : ∃ u, t.sampler = .uniform u) {draws : List Nat} {id : Int}
    (hid : -2 ^ 63 ≤ id ∧ id < 0) {seq : Dict String (List V)} (hadd : Table.addSequence draws id seq t = (t', .ok ()))
    (count n : Nat) (c r : Nat → Nat) (junk : String → Nat → Cell V) :
    (Table.sample count n c r junk t').2 = .error .overflowError := by
  have hs : ∃ u, t'.sampler = .uniform u ∧ u.dirty = true ∧ Table.wrapId id ∈ u.idents.keys := by
    unfold Table.addSequence at hadd
    cases hk : seq.get? t.lengthKey with
    | none => simp only [hk] at hadd; cases hadd
    | some rows =>
      simp only [hk] at hadd
      obtain ⟨t1, _, h1, hadd⟩ := Res.andThen_eq_ok.1 hadd
      obtain ⟨t2, _, h2, hadd⟩ := Res.andThen_eq_ok.1 hadd
      obtain ⟨t3, _, h3, hadd⟩ := Res.andThen_eq_ok.1 hadd
      have i1 : IsUniform t1 := by
        have : t1 = (if t.total + (rows.length : Int) > t.maxlen then
            Table.ejectCount draws (t.total + (rows.length : Int) - t.maxlen) t else (t, .ok ())).1 := by rw [h1]
        rw [this]
        split
        · exact ejectCount_uniform _ _ _ hu
        · exact hu
      have i2 : IsUniform t2 := by
        have := forEach_inv (fun x t ht => writeColumn_uniform (Table.wrapId id) x t ht) seq t1 i1
        rwa [h2] at this
      obtain ⟨u2, hu2⟩ := i2
      simp only [hu2] at h3
      cases h3
      unfold Res.lift at hadd
      injection hadd with h4 h5
      rw [← h4]
      refine ⟨_, rfl, rfl, ?_⟩
      exact Dict.mem_keys_set.2 (Or.inl rfl)
  obtain ⟨u, h1, h2, h3⟩ := hs
  have hfit : fitsInt64 (Table.wrapId id) = false := by
    unfold fitsInt64 Table.wrapId
    rw [if_pos hid.2]
    simp only [Bool.and_eq_false_iff, decide_eq_false_iff_not]
    right
    omega
  have hreb : u.rebalance.2 = .error .overflowError := by
    unfold Uniform.rebalance
    simp only
    rw [if_neg]
    rw [List.all_eq_true]
    intro hc
    rw [hc _ h3] at hfit
    cases hfit
  have hsample : (u.sample count n c r).2 = .error .overflowError := by
    unfold Uniform.sample Uniform.refresh
    rw [if_pos h2]
    rcases hr : u.rebalance with ⟨u', x⟩
    rw [hr] at hreb
    simp only at hreb
    subst hreb
    rfl
  unfold Table.sample
  rw [h1]
  rcases hx : u.sample count n c r with ⟨u', x⟩
  rw [hx] at hsample
  simp only at hsample
  subst hsample
  simp only [Strategy.sample, hx, Res.lift]
  rfl

namespace Ex

def t0 : Table Nat := (Table.new [⟨"obs", .plain⟩, ⟨"actions", .plain⟩, ⟨"rewards", .plain⟩] 100 (.uniform {}) (.fifo {}) "actions").1

example := C97_unsampleable (t := t0) ⟨{}, by decide +kernel⟩ (id := -1) (by decide) (draws := [])
  (seq := [("obs", [1, 2]), ("actions", [5]), ("rewards", [6])]) (Prod.ext rfl (by decide +kernel)) 1 1 id id fun _ _ => .bit true

end Ex

end LegacyFill

end Verif
