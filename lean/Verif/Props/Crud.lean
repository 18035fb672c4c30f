import Verif.Model.Crud
import Verif.Props.Threads
import Verif.Props.Checkpoint

/-!
# The CRUD storage (C53)

For all threads, calls, schedules, savers and changes of files by others.
-/

namespace Verif

open Spec

namespace Crud

variable {D : Type u}

/-! ## What a storage promises -/

/-- A call with its thread and its result. -/
abbrev Effect (D : Type u) := Nat × Call D × Result

/-- The item a call made. -/
def createdBy : Call D → Result → Option Item
  | .withSaver _ _ _, .ok (.item i) => some i
  | .fromPath _ _ _, .ok (.item i) => some i
  | _, _ => none

/-- The item a call made through a saver. -/
def savedBy : Call D → Result → Option Item
  | .withSaver _ _ _, .ok (.item i) => some i
  | _, _ => none

/-- The items made so far. -/
def created (a : List (Effect D)) : List Item := a.filterMap fun x => createdBy x.2.1 x.2.2

/-- The handle a call deletes. -/
def deletes : Call D → Option Int
  | .delete h => some h
  | _ => none

/-- The items after one more call. -/
def after (l : List Item) (x : Effect D) : List Item :=
  match deletes x.2.1 with
  | some h => l.filter fun i => i.handle != h
  | none => match createdBy x.2.1 x.2.2 with
    | some i => l ++ [i]
    | none => l

/-- The items that have been made and not been deleted, in the order in which they were made. -/
def live (a : List (Effect D)) : List Item := a.foldl after []

/-- The item with a handle. -/
def lookup (h : Int) (l : List Item) : Option Item := l.find? fun i => i.handle == h

/-- What a call may return, after the calls `a`. -/
def Answer (cfg : Config) (a : List (Effect D)) (r : Result) : Call D → Prop
  | .withSaver date stamp _ => ∀ v, r = .ok v →
    ∃ i, v = .item i ∧ i.handle ∉ (created a).map Item.handle ∧ i.stamp = stamp ∧ i.path = cfg.path date i.handle
  | .fromPath path inside stamp => ∀ v, r = .ok v →
    ∃ i, v = .item i ∧ i.handle ∉ (created a).map Item.handle ∧ i.stamp = stamp ∧ i.path = path ∧ inside = true
  | .update h _ => match lookup h (live a) with
    | some _ => r = .ok .nothing
    | none => r = .error .assertionError
  | .items => r = .ok (.all (live a))
  | .delete h => match lookup h (live a) with
    | some _ => r = .ok (.flag true) ∨ r = .error .runtimeError
    | none => r = .ok (.flag false)
  | .get h => r = .ok (.found (lookup h (live a)))
  | .latest => r = .ok (.found (live a).getLast?)

/-- Every call in a list of calls is answered so. -/
def Answered (cfg : Config) (l : List (Effect D)) : Prop :=
  ∀ a t c r b, l = a ++ (t, c, r) :: b → Answer cfg a r c

/-! ## File names -/

theorem digits_no_underscore (n : Nat) : '_' ∉ (toString n).toList := by
  rw [Nat.toString_eq_ofList_toDigits, String.toList_ofList]
  intro h
  have := Nat.isDigit_of_mem_toDigits (by decide) (by decide) h
  exact absurd this (by decide)

theorem int_no_underscore (a : Int) : '_' ∉ (toString a).toList := by
  cases a with
  | ofNat n => exact digits_no_underscore n
  | negSucc n =>
    change '_' ∉ ("-" ++ toString (n + 1)).toList
    rw [String.toList_append, List.mem_append]
    rintro (h | h)
    · revert h; decide
    · exact digits_no_underscore _ h

theorem last_part {a b s t : List Char} (hs : '_' ∉ s) (ht : '_' ∉ t) (h : a ++ '_' :: s = b ++ '_' :: t) : s = t := by
  induction a generalizing b with
  | nil =>
    cases b with
    | nil => simpa using h
    | cons x b =>
      simp only [List.nil_append, List.cons_append, List.cons.injEq] at h
      exact absurd (by rw [h.2]; simp) hs
  | cons x a ih =>
    cases b with
    | nil =>
      simp only [List.nil_append, List.cons_append, List.cons.injEq] at h
      exact absurd (by rw [← h.2]; simp) ht
    | cons y b =>
      simp only [List.cons_append, List.cons.injEq] at h
      exact ih h.2

/-- Different handles have different file names, at whatever times. -/
theorem path_inj (cfg : Config) {d₁ d₂ : String} {a b : Int} (h : cfg.path d₁ a = cfg.path d₂ b) : a = b := by
  unfold Config.path joinPath at h
  have key : ∀ p q : String, p ++ (cfg.fixedPrefix ++ d₁ ++ "_" ++ toString a ++ "." ++ cfg.extension)
      = q ++ (cfg.fixedPrefix ++ d₂ ++ "_" ++ toString b ++ "." ++ cfg.extension) → a = b := by
    intro p q h
    simp only [← String.append_assoc] at h
    have h := (String.append_left_inj _).1 h
    have h := (String.append_left_inj _).1 h
    have h := congrArg String.toList h
    simp only [String.toList_append] at h
    rw [show "_".toList = ['_'] from rfl] at h
    refine intRepr_inj (String.toList_inj.mp ?_)
    refine last_part (a := p.toList ++ (cfg.fixedPrefix.toList ++ d₁.toList))
      (b := q.toList ++ (cfg.fixedPrefix.toList ++ d₂.toList)) (int_no_underscore a) (int_no_underscore b) ?_
    simpa using h
  split at h
  · exact key _ _ h
  · exact key _ _ h

/-! ## Consequences of the promise -/

theorem created_append (a b : List (Effect D)) : created (a ++ b) = created a ++ created b := List.filterMap_append

theorem live_snoc (a : List (Effect D)) (x : Effect D) : live (a ++ [x]) = after (live a) x := by
  simp [live, List.foldl_append]

theorem Answered.prefix {cfg : Config} {a b : List (Effect D)} (h : Answered cfg (a ++ b)) : Answered cfg a := by
  intro a' t c r b' h'
  exact h a' t c r (b' ++ b) (by rw [h']; simp)

theorem Answered.last {cfg : Config} {a : List (Effect D)} {t : Nat} {c : Call D} {r : Result}
    (h : Answered cfg (a ++ [(t, c, r)])) : Answer cfg a r c := h a t c r [] rfl

theorem Answer.created_fresh {cfg : Config} {a : List (Effect D)} {c : Call D} {r : Result} (h : Answer cfg a r c) {i : Item}
    (hc : createdBy c r = some i) : i.handle ∉ (created a).map Item.handle := by
  cases c <;> cases r <;> try (simp [createdBy] at hc)
  all_goals
    rename_i v
    cases v <;> simp only [Option.some.injEq, reduceCtorEq] at hc
    subst hc
    obtain ⟨i, hi, hf, _⟩ := h _ rfl
    cases hi
    exact hf

/-- Handles are given once. -/
theorem Answered.handles_nodup {cfg : Config} {a : List (Effect D)} (h : Answered cfg a) :
    ((created a).map Item.handle).Nodup := by
  induction a using snocInduction with
  | nil => simp [created]
  | snoc a x ih =>
    obtain ⟨t, c, r⟩ := x
    rw [created_append, List.map_append, List.nodup_append]
    refine ⟨ih h.prefix, ?_, ?_⟩
    · cases hc : createdBy c r <;> simp [created, hc]
    · intro x hx y hy
      cases hc : createdBy c r with
      | none => simp [created, hc] at hy
      | some i =>
        have hy : y = i.handle := by simpa [created, hc] using hy
        subst hy
        rintro rfl
        exact h.last.created_fresh hc hx

theorem live_sub (a : List (Effect D)) : (live a).Sublist (created a) := by
  induction a using snocInduction with
  | nil => simp [live]
  | snoc a x ih =>
    rw [live_snoc, created_append, after]
    split
    · exact (List.filter_sublist.trans ih).trans (List.sublist_append_left _ _)
    · split
      · next i hi =>
        rw [show created [x] = [i] by simp [created, hi]]
        exact ih.append (List.Sublist.refl _)
      · exact ih.trans (List.sublist_append_left _ _)

theorem Answered.live_nodup {cfg : Config} {a : List (Effect D)} (h : Answered cfg a) :
    ((live a).map Item.handle).Nodup := ((live_sub a).map _).nodup h.handles_nodup

theorem lookup_of_mem {l : List Item} (hn : (l.map Item.handle).Nodup) {i : Item} (hi : i ∈ l) :
    lookup i.handle l = some i := by
  induction l with
  | nil => cases hi
  | cons j l ih =>
    rw [List.map_cons, List.nodup_cons] at hn
    rw [lookup, List.find?_cons]
    rcases List.mem_cons.mp hi with rfl | hi
    · simp
    · have : j.handle ≠ i.handle := fun h => hn.1 (h ▸ List.mem_map_of_mem hi)
      rw [show (j.handle == i.handle) = false by simpa using this]
      exact ih hn.2 hi

theorem lookup_eq_none {l : List Item} {h : Int} : lookup h l = none ↔ h ∉ l.map Item.handle := by
  simp [lookup, List.find?_eq_none]

theorem mem_of_lookup {l : List Item} {h : Int} {i : Item} (hl : lookup h l = some i) : i ∈ l ∧ i.handle = h := by
  refine ⟨List.mem_of_find?_eq_some hl, ?_⟩
  simpa using List.find?_some hl

/-- Erasing the item with a handle. -/
theorem erase_lookup {l : List Item} (hn : (l.map Item.handle).Nodup) {i : Item} (hi : i ∈ l) :
    l.erase i = l.filter fun j => j.handle != i.handle := by
  have h1 : l.Nodup := List.Pairwise.of_map Item.handle (fun _ _ h h' => h (congrArg _ h')) hn
  rw [h1.erase_eq_filter]
  apply List.filter_congr
  intro j hj
  by_cases h : j = i
  · simp [h]
  · have : j.handle ≠ i.handle := fun h' => by
      have h1 := lookup_of_mem hn hj
      have h2 := lookup_of_mem hn hi
      rw [h'] at h1
      rw [h1] at h2
      exact h (Option.some.inj h2)
    rw [bne_iff_ne.mpr h, bne_iff_ne.mpr this]

theorem filter_none {l : List Item} {h : Int} (hn : lookup h l = none) : (l.filter fun j => j.handle != h) = l := by
  rw [List.filter_eq_self]
  intro j hj
  have := lookup_eq_none.mp hn
  simp only [bne_iff_ne, ne_eq]
  rintro rfl
  exact this (List.mem_map_of_mem hj)

/-- An item stays live unless its handle is deleted. -/
theorem live_of_created {a : List (Effect D)} {t : Nat} {c : Call D} {r : Result} {i : Item} (hm : (t, c, r) ∈ a)
    (hc : createdBy c r = some i) (hd : ∀ u r', (u, Call.delete i.handle, r') ∉ a) : i ∈ live a := by
  induction a using snocInduction with
  | nil => cases hm
  | snoc a x ih =>
    rw [live_snoc]
    rcases List.mem_append.mp hm with hm | hm
    · have h := ih hm (fun u r' hu => hd u r' (List.mem_append_left _ hu))
      unfold after
      split
      · next h' hh' =>
        rw [List.mem_filter]
        refine ⟨h, ?_⟩
        simp only [bne_iff_ne, ne_eq]
        rintro rfl
        obtain ⟨u, c', r'⟩ := x
        cases c' <;> simp [deletes] at hh'
        subst hh'
        exact hd u r' (by simp)
      · split
        · exact List.mem_append_left _ h
        · exact h
    · simp only [List.mem_singleton] at hm
      subst hm
      unfold after
      have : deletes c = none := by cases c <;> simp_all [createdBy, deletes]
      simp only [this, hc]
      simp

/-- What has been deleted is not live again. -/
theorem not_live_of_deleted {cfg : Config} {a b : List (Effect D)} {t : Nat} {h : Int} {r : Result}
    (ha : Answered cfg (a ++ (t, .delete h, r) :: b)) (hr : r ≠ .ok (.flag false)) :
    h ∉ (live (a ++ (t, .delete h, r) :: b)).map Item.handle := by
  have h1 : h ∈ (created a).map Item.handle := by
    have := ha a t _ r b rfl
    simp only [Answer] at this
    split at this
    · next i hi =>
      obtain ⟨hm, rfl⟩ := mem_of_lookup hi
      exact List.mem_map_of_mem ((live_sub a).subset hm)
    · exact absurd this hr
  induction b using snocInduction with
  | nil =>
    rw [show a ++ [(t, Call.delete h, r)] = a ++ [(t, .delete h, r)] from rfl, live_snoc]
    simp [after, deletes]
  | snoc b x ih =>
    rw [show a ++ (t, Call.delete h, r) :: (b ++ [x]) = (a ++ (t, .delete h, r) :: b) ++ [x] by simp] at ha ⊢
    have h2 := ih ha.prefix
    rw [live_snoc, after]
    split
    · intro hm
      obtain ⟨i, hi, rfl⟩ := List.mem_map.mp hm
      exact h2 (List.mem_map_of_mem (List.mem_filter.mp hi).1)
    · split
      · next i hi =>
        rw [List.map_append, List.mem_append]
        rintro (hm | hm)
        · exact h2 hm
        · simp only [List.map_cons, List.map_nil, List.mem_singleton] at hm
          subst hm
          obtain ⟨u, c, r'⟩ := x
          apply ha.last.created_fresh hi
          rw [created_append, List.map_append]
          exact List.mem_append_left _ h1
      · exact h2

/-! ## The storage keeps the promise -/

/-- Where a thread can be before its call takes effect. -/
inductive Place (cfg : Config) : Call D → Pc D → Prop where
  | start (c : Call D) : Place cfg c .start
  | number (date : String) (stamp : Nat) (sv) : Place cfg (.withSaver date stamp sv) .number
  | check (date : String) (stamp : Nat) (sv) (h : Int) : Place cfg (.withSaver date stamp sv) (.check h)
  | save (date : String) (stamp : Nat) (sv) (h : Int) : Place cfg (.withSaver date stamp sv) (.save h)
  | verify (date : String) (stamp : Nat) (sv) (h : Int) : Place cfg (.withSaver date stamp sv) (.verify h)
  | append (date : String) (stamp : Nat) (sv) (h : Int) :
    Place cfg (.withSaver date stamp sv) (.append ⟨h, stamp, cfg.path date h⟩)
  | numberPath (path : String) (stamp : Nat) : Place cfg (.fromPath path true stamp) .number
  | appendPath (path : String) (stamp : Nat) (h : Int) : Place cfg (.fromPath path true stamp) (.append ⟨h, stamp, path⟩)

/-- The handle a thread has reserved. -/
def reserved : Pc D → Option Int
  | .check h => some h
  | .save h => some h
  | .verify h => some h
  | .append i => some i.handle
  | _ => none

/-- The events of a thread fit what it is doing. -/
inductive Fits (cfg : Config) (t : Nat) : Option (Call D × Pc D) → List (LEvent (Call D) Result) → Prop where
  | idle : Fits cfg t none []
  | before (c : Call D) (pc : Pc D) (h : Place cfg c pc) : Fits cfg t (some (c, pc)) [.inv t c]
  | writing (hd : Int) (data : D) (p : String) (d : D) :
    Fits cfg t (some (.update hd data, .write p d)) [.inv t (.update hd data), .lin t (.update hd data) (.ok .nothing)]
  | after (c : Call D) (r : Result) : Fits cfg t (some (c, .done r)) [.inv t c, .lin t c r]

/-- The handle reserved by a thread of a state. -/
def State.reserves (s : State D) (t : Nat) : Option Int := (s.threads t).cur.bind fun p => reserved p.2

structure Sound (cfg : Config) (s : State D) (l : List (LEvent (Call D) Result)) : Prop where
  vis : visible l = s.hist
  fits : ∀ t, ∃ (calls : List (Call D × Result)) (tail : List (LEvent (Call D) Result)),
    ofThread t l = calls.flatMap (complete t) ++ tail ∧ Fits cfg t (s.threads t).cur tail
  items : s.items = live (effects l)
  answered : Answered cfg (effects l)
  below : ∀ h ∈ (created (effects l)).map Item.handle, h < s.counter
  fresh : ∀ t h, s.reserves t = some h → h < s.counter ∧ h ∉ (created (effects l)).map Item.handle
  apart : ∀ t u h, s.reserves t = some h → s.reserves u = some h → t = u

theorem Fits.open {cfg : Config} {t : Nat} {c : Option (Call D × Pc D)} {l : List (LEvent (Call D) Result)} (h : Fits cfg t c l) :
    Open t l := by
  cases h
  · exact .none
  · exact .before _
  · exact .after _ _
  · exact .after _ _

theorem Sound.wellFormed {cfg : Config} {s : State D} {l : List (LEvent (Call D) Result)} (h : Sound cfg s l) :
    WellFormed l := by
  intro t
  obtain ⟨calls, tail, h1, h2⟩ := h.fits t
  exact ⟨calls, tail, h1, h2.open⟩

theorem sound_start (cfg : Config) (f : Files D) (calls : Nat → List (Call D)) : Sound cfg (start f calls) [] where
  vis := rfl
  fits t := ⟨[], [], rfl, .idle⟩
  items := rfl
  answered := by
    intro a t c r b h
    simp [effects] at h
  below := by simp [effects, created]
  fresh t h hh := by simp [State.reserves, start] at hh
  apart t u h hh := by simp [State.reserves, start] at hh

theorem Sound.update {cfg : Config} {s s' : State D} {l es : List (LEvent (Call D) Result)} {t : Nat} (h : Sound cfg s l)
    (hth : ∀ u, u ≠ t → (s'.threads u).cur = (s.threads u).cur) (hes : ∀ e ∈ es, thread e = t)
    (hvis : visible (l ++ es) = s'.hist)
    (hfit : ∃ (calls : List (Call D × Result)) (tail : List (LEvent (Call D) Result)),
      ofThread t (l ++ es) = calls.flatMap (complete t) ++ tail ∧ Fits cfg t (s'.threads t).cur tail)
    (hitems : s'.items = live (effects (l ++ es))) (hans : Answered cfg (effects (l ++ es)))
    (hcount : s.counter ≤ s'.counter)
    (hres : ∀ h, s'.reserves t = some h → s.reserves t = some h ∨ (h = s.counter ∧ s.counter < s'.counter))
    (hnew : ∀ h ∈ (created (effects es)).map Item.handle, s.reserves t = some h ∧ s'.reserves t = none) :
    Sound cfg s' (l ++ es) := by
  have hold : ∀ u, u ≠ t → s'.reserves u = s.reserves u := fun u hu => by
    rw [State.reserves, State.reserves, hth u hu]
  have hmem : ∀ h, h ∈ (created (effects (l ++ es))).map Item.handle →
      h ∈ (created (effects l)).map Item.handle ∨ h ∈ (created (effects es)).map Item.handle := by
    intro h hm
    rwa [effects_append, created_append, List.map_append, List.mem_append] at hm
  refine ⟨hvis, ?_, hitems, hans, ?_, ?_, ?_⟩
  · intro u
    by_cases hu : u = t
    · subst hu
      exact hfit
    · obtain ⟨calls, tail, h1, h2⟩ := h.fits u
      refine ⟨calls, tail, ?_, by rw [hth u hu]; exact h2⟩
      rw [ofThread_append, h1]
      have : ofThread u es = [] := by
        rw [ofThread, List.filter_eq_nil_iff]
        intro e he
        rw [hes e he]
        simp only [beq_iff_eq]
        exact fun h => hu h.symm
      rw [this, List.append_nil]
  · intro x hx
    rcases hmem x hx with hx | hx
    · exact lt_of_lt_of_le (h.below x hx) hcount
    · exact lt_of_lt_of_le (h.fresh t x (hnew x hx).1).1 hcount
  · intro u x hx
    by_cases hu : u = t
    · subst hu
      have hnot : x ∉ (created (effects es)).map Item.handle := fun hm => by
        rw [(hnew x hm).2] at hx
        cases hx
      rcases hres x hx with hx' | ⟨rfl, hlt⟩
      · refine ⟨lt_of_lt_of_le (h.fresh u x hx').1 hcount, fun hm => ?_⟩
        rcases hmem x hm with hm | hm
        · exact (h.fresh u x hx').2 hm
        · exact hnot hm
      · refine ⟨hlt, fun hm => ?_⟩
        rcases hmem _ hm with hm | hm
        · exact lt_irrefl _ (h.below _ hm)
        · exact hnot hm
    · rw [hold u hu] at hx
      refine ⟨lt_of_lt_of_le (h.fresh u x hx).1 hcount, fun hm => ?_⟩
      rcases hmem x hm with hm | hm
      · exact (h.fresh u x hx).2 hm
      · exact hu (h.apart u t x hx (hnew x hm).1)
  · have main : ∀ u x, u ≠ t → s'.reserves t = some x → s'.reserves u = some x → False := by
      intro u x hu h1 h2
      rw [hold u hu] at h2
      rcases hres x h1 with h1 | ⟨rfl, _⟩
      · exact hu (h.apart u t x h2 h1)
      · exact lt_irrefl _ (h.fresh u _ h2).1
    intro u v x h1 h2
    by_cases hu : u = t
    · subst hu
      by_contra hv
      exact main v x (fun h => hv h.symm) h1 h2
    · by_cases hv : v = t
      · subst hv
        exact absurd h1 (fun h1 => main u x hu h2 h1)
      · rw [hold u hu] at h1
        rw [hold v hv] at h2
        exact h.apart u v x h1 h2

theorem setThread_self (s : State D) (t : Nat) (th : CThread D) : s.setThread t th t = th := by simp [State.setThread]

theorem setThread_ne (s : State D) {t u : Nat} (th : CThread D) (h : u ≠ t) : s.setThread t th u = s.threads u := by
  simp [State.setThread, h]

theorem answered_snoc {cfg : Config} {a : List (Effect D)} (h : Answered cfg a) {t : Nat} {c : Call D} {r : Result}
    (ha : Answer cfg a r c) : Answered cfg (a ++ [(t, c, r)]) := by
  intro x u c' r' b hx
  rcases List.eq_nil_or_concat b with rfl | ⟨b', e, rfl⟩
  · have := List.append_inj' hx rfl
    obtain ⟨rfl, h2⟩ := this
    simp only [List.cons.injEq, Prod.mk.injEq, and_true] at h2
    obtain ⟨_, rfl, rfl⟩ := h2
    exact ha
  · rw [List.concat_eq_append, ← List.cons_append, ← List.append_assoc] at hx
    exact h x u c' r' b' (List.append_inj' hx rfl).1

/-- A step that has no effect yet. -/
theorem Sound.quiet {cfg : Config} {s : State D} {l : List (LEvent (Call D) Result)} {t : Nat} (h : Sound cfg s l)
    {c : Call D} {pc pc' : Pc D} (hc : (s.threads t).cur = some (c, pc)) {calls : List (Call D × Result)}
    (h1 : ofThread t l = calls.flatMap (complete t) ++ [.inv t c]) (hp : Place cfg c pc') (counter : Int) (files : Files D)
    (hcount : s.counter ≤ counter)
    (hres : ∀ h, reserved pc' = some h → reserved pc = some h ∨ (h = s.counter ∧ s.counter < counter)) :
    Sound cfg { s with counter := counter, items := s.items, files := files,
                       threads := s.setThread t ⟨(s.threads t).todo, some (c, pc')⟩ } l := by
  rw [← List.append_nil l]
  refine h.update (t := t) (fun u hu => by simp [setThread_ne s _ hu]) (by simp) (by simpa using h.vis)
    ⟨calls, [.inv t c], by simpa using h1, by simp only [setThread_self]; exact .before c pc' hp⟩
    (by simpa using h.items) (by simpa using h.answered) hcount ?_ (by simp [effects, created])
  intro x hx
  simp only [State.reserves, setThread_self, Option.bind_some] at hx
  simp only [State.reserves, hc, Option.bind_some]
  exact hres x hx

/-- A step with an effect. -/
theorem Sound.effect {cfg : Config} {s : State D} {l : List (LEvent (Call D) Result)} {t : Nat} (h : Sound cfg s l)
    {c : Call D} {pc pc' : Pc D} (hc : (s.threads t).cur = some (c, pc)) {calls : List (Call D × Result)}
    (h1 : ofThread t l = calls.flatMap (complete t) ++ [.inv t c]) {r : Result}
    (hp : Fits cfg t (some (c, pc')) [.inv t c, .lin t c r]) (items : List Item) (files : Files D)
    (hi : items = after (live (effects l)) (t, c, r)) (ha : Answer cfg (effects l) r c)
    (hres : reserved pc' = none) (hnew : ∀ i, createdBy c r = some i → reserved pc = some i.handle) :
    Sound cfg { s with counter := s.counter, items := items, files := files,
                       threads := s.setThread t ⟨(s.threads t).todo, some (c, pc')⟩ } (l ++ [.lin t c r]) := by
  have he : effects (l ++ [.lin t c r]) = effects l ++ [(t, c, r)] := by rw [effects_append]; rfl
  refine h.update (t := t) (fun u hu => by simp [setThread_ne s _ hu]) (by simp [thread]) ?_ ?_ ?_ ?_ le_rfl ?_ ?_
  · rw [visible_append, h.vis]
    simp [visible]
  · refine ⟨calls, [.inv t c, .lin t c r], ?_, by simp only [setThread_self]; exact hp⟩
    rw [ofThread_append, h1]
    simp [ofThread, thread]
  · rw [he, live_snoc]
    exact hi
  · rw [he]
    exact answered_snoc h.answered ha
  · intro x hx
    simp only [State.reserves, setThread_self, Option.bind_some, hres] at hx
    cases hx
  · intro x hx
    simp only [effects, created, List.mem_map, List.mem_filterMap, List.mem_singleton, exists_eq_left] at hx
    obtain ⟨i, hi', rfl⟩ := hx
    simp only [State.reserves, setThread_self, Option.bind_some, hres, hc, and_true]
    exact hnew i hi'

theorem after_same {l : List Item} {t : Nat} {c : Call D} {r : Result} (h1 : deletes c = none) (h2 : createdBy c r = none) :
    after l (t, c, r) = l := by
  simp [after, h1, h2]

theorem after_delete {l : List Item} {t : Nat} {h : Int} {r : Result} :
    after l (t, (.delete h : Call D), r) = l.filter fun i => i.handle != h := by
  simp [after, deletes]

theorem step_sound {cfg : Config} {s : State D} {l : List (LEvent (Call D) Result)} (h : Sound cfg s l) (x : Turn D) :
    ∃ l', Sound cfg (step cfg s x) l' := by
  cases x with
  | outside f => exact ⟨l, ⟨h.vis, h.fits, h.items, h.answered, h.below, h.fresh, h.apart⟩⟩
  | thread t =>
    obtain ⟨calls, tail, h1, h2⟩ := h.fits t
    rw [step]
    generalize hcur : (s.threads t).cur = cur at h2 ⊢
    cases h2 with
    | idle =>
      simp only
      cases htodo : (s.threads t).todo with
      | nil => exact ⟨l, h⟩
      | cons c cs =>
        refine ⟨l ++ [.inv t c], ?_⟩
        refine h.update (t := t) (fun u hu => by simp [setThread_ne s _ hu]) (by simp [thread]) ?_ ?_ ?_ ?_ le_rfl ?_ ?_
        · rw [visible_append, h.vis]
          rfl
        · refine ⟨calls, [.inv t c], ?_, by simp only [setThread_self]; exact .before c _ (.start c)⟩
          rw [ofThread_append, h1]
          simp [ofThread, thread]
        · rw [effects_append]
          simpa [effects] using h.items
        · rw [effects_append]
          simpa [effects] using h.answered
        · intro x hx
          simp [State.reserves, setThread_self, reserved] at hx
        · simp [effects, created]
    | after c r =>
      refine ⟨l ++ [.ret t c r], ?_⟩
      simp only
      refine h.update (t := t) (fun u hu => by simp [setThread_ne s _ hu]) (by simp [thread]) ?_ ?_ ?_ ?_ le_rfl ?_ ?_
      · rw [visible_append, h.vis]
        rfl
      · refine ⟨calls ++ [(c, r)], [], ?_, by simp only [setThread_self]; exact .idle⟩
        rw [ofThread_append, h1]
        simp [ofThread, thread, complete]
      · rw [effects_append]
        simpa [effects] using h.items
      · rw [effects_append]
        simpa [effects] using h.answered
      · intro x hx
        simp [State.reserves, setThread_self] at hx
      · simp [effects, created]
    | writing hd data p d =>
      refine ⟨l ++ [], ?_⟩
      simp only [advance]
      refine h.update (t := t) (fun u hu => by simp [setThread_ne s _ hu]) (by simp) ?_ ?_ ?_ ?_ le_rfl ?_ ?_
      · simpa using h.vis
      · exact ⟨calls, _, by rw [List.append_nil, h1], by simp only [setThread_self]; exact .after _ _⟩
      · simpa using h.items
      · simpa using h.answered
      · intro x hx
        simp [State.reserves, setThread_self, reserved] at hx
      · simp [effects, created]
    | before c pc hp =>
      cases hp with
      | number date stamp sv =>
        simp only [advance]
        exact ⟨l, h.quiet hcur h1 (.check ..) _ _ (by omega) (by
          intro x hx
          simp only [reserved, Option.some.injEq] at hx
          exact Or.inr ⟨hx.symm, by omega⟩)⟩
      | check date stamp sv hh =>
        simp only [advance]
        split
        · exact ⟨l, h.quiet hcur h1 (.number ..) _ _ le_rfl (by simp [reserved])⟩
        · exact ⟨l, h.quiet hcur h1 (.save ..) _ _ le_rfl (by simp [reserved])⟩
      | save date stamp sv hh =>
        simp only [advance]
        split
        · exact ⟨l, h.quiet hcur h1 (.verify ..) _ _ le_rfl (by simp [reserved])⟩
        · exact ⟨_, h.effect hcur h1 (.after _ _) _ _ (by rw [after_same rfl rfl, h.items]) (by simp [Answer]) rfl
            (by simp [createdBy])⟩
      | verify date stamp sv hh =>
        simp only [advance]
        split
        · exact ⟨l, h.quiet hcur h1 (.append ..) _ _ le_rfl (by simp [reserved])⟩
        · exact ⟨_, h.effect hcur h1 (.after _ _) _ _ (by rw [after_same rfl rfl, h.items]) (by simp [Answer]) rfl
            (by simp [createdBy])⟩
      | append date stamp sv hh =>
        simp only [advance]
        refine ⟨_, h.effect hcur h1 (.after _ _) _ _ (by simp [after, deletes, createdBy, h.items]) ?_ rfl
            (by simp [createdBy, reserved])⟩
        intro v hv
        cases hv
        exact ⟨_, rfl, (h.fresh t hh (by simp [State.reserves, hcur, reserved])).2, rfl, rfl⟩
      | numberPath path stamp =>
        simp only [advance]
        exact ⟨l, h.quiet hcur h1 (.appendPath ..) _ _ (by omega) (by
          intro x hx
          simp only [reserved, Option.some.injEq] at hx
          exact Or.inr ⟨hx.symm, by omega⟩)⟩
      | appendPath path stamp hh =>
        simp only [advance]
        refine ⟨_, h.effect hcur h1 (.after _ _) _ _ (by simp [after, deletes, createdBy, h.items]) ?_ rfl
            (by simp [createdBy, reserved])⟩
        intro v hv
        cases hv
        exact ⟨_, rfl, (h.fresh t hh (by simp [State.reserves, hcur, reserved])).2, rfl, rfl, rfl⟩
      | start c =>
        cases c with
        | withSaver date stamp sv =>
          simp only [advance]
          split
          · exact ⟨l, h.quiet hcur h1 (.number ..) _ _ le_rfl (by simp [reserved])⟩
          · exact ⟨_, h.effect hcur h1 (.after _ _) _ _ (by rw [after_same rfl rfl, h.items]) (by simp [Answer]) rfl
              (by simp [createdBy])⟩
        | fromPath path inside stamp =>
          simp only [advance]
          split
          · split
            · next hin =>
              subst hin
              exact ⟨l, h.quiet hcur h1 (.numberPath ..) _ _ le_rfl (by simp [reserved])⟩
            · exact ⟨_, h.effect hcur h1 (.after _ _) _ _ (by rw [after_same rfl rfl, h.items]) (by simp [Answer]) rfl
                (by simp [createdBy])⟩
          · exact ⟨_, h.effect hcur h1 (.after _ _) _ _ (by rw [after_same rfl rfl, h.items]) (by simp [Answer]) rfl
              (by simp [createdBy])⟩
        | update hd data =>
          simp only [advance]
          have hl : lookup hd (live (effects l)) = s.items.find? (fun i => i.handle == hd) := by rw [h.items]; rfl
          cases hf : s.items.find? (fun i => i.handle == hd) with
          | none =>
            exact ⟨_, h.effect hcur h1 (.after _ _) _ _ (by rw [after_same rfl rfl, h.items])
              (by simp only [Answer, hl, hf]) rfl (by simp [createdBy])⟩
          | some i =>
            exact ⟨_, h.effect hcur h1 (.writing _ _ _ _) _ _ (by rw [after_same rfl rfl, h.items])
              (by simp only [Answer, hl, hf]) rfl (by simp [createdBy])⟩
        | items =>
          simp only [advance]
          exact ⟨_, h.effect hcur h1 (.after _ _) _ _ (by rw [after_same rfl rfl, h.items])
              (by simp only [Answer, h.items]) rfl (by simp [createdBy])⟩
        | delete hd =>
          simp only [advance]
          have hl : lookup hd (live (effects l)) = s.items.find? (fun i => i.handle == hd) := by rw [h.items]; rfl
          cases hf : s.items.find? (fun i => i.handle == hd) with
          | none =>
            simp only
            refine ⟨_, h.effect hcur h1 (.after _ _) _ _ ?_
              (by simp only [Answer, hl, hf]) rfl (by simp [createdBy])⟩
            rw [hf] at hl
            rw [after_delete, filter_none hl, h.items]
          | some i =>
            rw [hf] at hl
            have he : s.items.erase i = (live (effects l)).filter fun j => j.handle != hd := by
              rw [h.items, erase_lookup h.answered.live_nodup (mem_of_lookup hl).1, (mem_of_lookup hl).2]
            simp only
            split
            · exact ⟨_, h.effect hcur h1 (.after _ _) _ _ (by rw [after_delete, he])
                (by simp [Answer, hl]) rfl (by simp [createdBy])⟩
            · exact ⟨_, h.effect hcur h1 (.after _ _) _ _ (by rw [after_delete, he])
                (by simp [Answer, hl]) rfl (by simp [createdBy])⟩
        | get hd =>
          simp only [advance]
          exact ⟨_, h.effect hcur h1 (.after _ _) _ _ (by rw [after_same rfl rfl, h.items])
              (by simp only [Answer, h.items, lookup]) rfl (by simp [createdBy])⟩
        | latest =>
          simp only [advance]
          exact ⟨_, h.effect hcur h1 (.after _ _) _ _ (by rw [after_same rfl rfl, h.items])
              (by simp only [Answer, h.items]) rfl (by simp [createdBy])⟩

theorem run_sound {cfg : Config} {s : State D} {l : List (LEvent (Call D) Result)} (h : Sound cfg s l) (turns : List (Turn D)) :
    ∃ l', Sound cfg (run cfg s turns) l' := by
  induction turns generalizing s l with
  | nil => exact ⟨l, h⟩
  | cons x turns ih =>
    obtain ⟨l', h'⟩ := step_sound h x
    exact ih h'

/-! ## C53 -/

/-- C53: every execution of every number of threads, with anything happening to the files, looks as if the calls had been
made one after the other, each at a moment between its beginning and its end, and each answered as promised: fresh
handles, `get` and `items` and `latest` from the live items in order of creation, `delete` and `update` as found. -/
theorem C53_linearizable (cfg : Config) (files : Files D) (calls : Nat → List (Call D)) (turns : List (Turn D)) :
    ∃ l, visible l = (run cfg (start files calls) turns).hist ∧ WellFormed l ∧ Answered cfg (effects l) := by
  obtain ⟨l, h⟩ := run_sound (sound_start cfg files calls) turns
  exact ⟨l, h.vis, h.wellFormed, h.answered⟩

/-- The saved items of answered calls have different paths. -/
theorem Answered.paths_nodup {cfg : Config} {a : List (Effect D)} (h : Answered cfg a) :
    ((a.filterMap fun x => savedBy x.2.1 x.2.2).map Item.path).Nodup := by
  have sub : ∀ (c : Call D) (r : Result) (i : Item), savedBy c r = some i → createdBy c r = some i := by
    intro c r i hi
    cases c <;> cases r <;> try (simp [savedBy] at hi)
    rename_i v
    cases v <;> simp_all [createdBy]
  have form : ∀ {a : List (Effect D)}, Answered cfg a → ∀ i ∈ a.filterMap (fun x => savedBy x.2.1 x.2.2),
      ∃ date, i.path = cfg.path date i.handle := by
    intro a h i hi
    obtain ⟨⟨t, c, r⟩, hm, hs⟩ := List.mem_filterMap.mp hi
    obtain ⟨x, y, rfl⟩ := List.append_of_mem hm
    have := h x t c r y rfl
    cases c <;> cases r <;> try (simp [savedBy] at hs)
    rename_i v
    cases v <;> simp only [reduceCtorEq, Option.some.injEq] at hs
    subst hs
    obtain ⟨i, hi, _, _, hp⟩ := this _ rfl
    cases hi
    exact ⟨_, hp⟩
  induction a using snocInduction with
  | nil => simp
  | snoc a x ih =>
    rw [List.filterMap_append, List.map_append, List.nodup_append]
    refine ⟨ih h.prefix, ?_, ?_⟩
    · cases hc : savedBy x.2.1 x.2.2 <;> simp [hc]
    · intro p hp q hq
      cases hc : savedBy x.2.1 x.2.2 with
      | none => simp [hc] at hq
      | some i =>
        have hq : q = i.path := by simpa [hc] using hq
        subst hq
        obtain ⟨j, hj, rfl⟩ := List.mem_map.mp hp
        intro heq
        obtain ⟨d₁, h1⟩ := form h.prefix j hj
        obtain ⟨d₂, h2⟩ := form h i (by rw [List.filterMap_append]; simp [hc])
        have hh := path_inj cfg (h1.symm.trans (heq.trans h2))
        obtain ⟨t, c, r⟩ := x
        refine h.last.created_fresh (sub c r i hc) ?_
        rw [← hh]
        refine List.mem_map_of_mem ?_
        obtain ⟨y, hy, hs⟩ := List.mem_filterMap.mp hj
        exact List.mem_filterMap.mpr ⟨y, hy, sub _ _ _ hs⟩

/-- C53: no two creates return the same handle, and no two creates of new files the same path. -/
theorem C53_unique (cfg : Config) (files : Files D) (calls : Nat → List (Call D)) (turns : List (Turn D)) :
    ((created (returned (run cfg (start files calls) turns).hist)).map Item.handle).Nodup ∧
    (((returned (run cfg (start files calls) turns).hist).filterMap fun x => savedBy x.2.1 x.2.2).map Item.path).Nodup := by
  obtain ⟨l, h1, h2, h3⟩ := C53_linearizable cfg files calls turns
  rw [← h1]
  have hs := returned_subperm h2
  obtain ⟨m, hp, hsub⟩ := hs
  constructor
  · have h4 := h3.handles_nodup
    have h5 : ((created m).map Item.handle).Nodup := ((hsub.filterMap _).map _).nodup h4
    exact ((hp.filterMap _).map _).nodup_iff.mp h5
  · have h4 := h3.paths_nodup
    have h5 : ((m.filterMap fun x => savedBy x.2.1 x.2.2).map Item.path).Nodup := ((hsub.filterMap _).map _).nodup h4
    exact ((hp.filterMap _).map _).nodup_iff.mp h5

/-- C53: a `get` made after a create returned finds the item, if nobody has called `delete` on it before the `get`
returned. -/
theorem C53_get_live (cfg : Config) (files : Files D) (calls : Nat → List (Call D)) (turns : List (Turn D))
    {h₁ y z : List (HEvent (Call D) Result)} {t u : Nat} {c : Call D} {i : Item} {r r' : Result}
    (hh : (run cfg (start files calls) turns).hist = h₁ ++ .inv t (.get i.handle) :: (y ++ .ret t (.get i.handle) r :: z))
    (hy : ∀ e ∈ y, actor e ≠ t) (hc : .ret u c r' ∈ h₁) (hi : createdBy c r' = some i)
    (hd : ∀ v, .inv v (.delete i.handle) ∉ h₁ ++ y) : r = .ok (.found (some i)) := by
  obtain ⟨l, h1, h2, h3⟩ := C53_linearizable cfg files calls turns
  obtain ⟨a, b, h4, h5, h6⟩ := call_effect h2 (h1.trans hh) hy
  have h7 := h3 a t _ r b h4
  simp only [Answer] at h7
  rw [h7]
  have h8 : i ∈ live a := live_of_created (h5 u c r' hc) hi (fun v r'' hm => by
    rcases h6 v _ r'' hm with h | ⟨_, h⟩
    · exact hd v h
    · cases h)
  have h9 : Answered cfg a := (h4 ▸ h3).prefix
  rw [lookup_of_mem h9.live_nodup h8]

/-- C53: a `get` made after a `delete` of an item returned finds nothing; the handle is never used again. -/
theorem C53_get_deleted (cfg : Config) (files : Files D) (calls : Nat → List (Call D)) (turns : List (Turn D))
    {h₁ y z : List (HEvent (Call D) Result)} {t u : Nat} {h : Int} {r r' : Result}
    (hh : (run cfg (start files calls) turns).hist = h₁ ++ .inv t (.get h) :: (y ++ .ret t (.get h) r :: z))
    (hy : ∀ e ∈ y, actor e ≠ t) (hc : .ret u (.delete h) r' ∈ h₁) (hr : r' ≠ .ok (.flag false)) :
    r = .ok (.found none) := by
  obtain ⟨l, h1, h2, h3⟩ := C53_linearizable cfg files calls turns
  obtain ⟨a, b, h4, h5, h6⟩ := call_effect h2 (h1.trans hh) hy
  have h7 := h3 a t _ r b h4
  simp only [Answer] at h7
  rw [h7]
  have h9 : Answered cfg a := (h4 ▸ h3).prefix
  obtain ⟨x, w, rfl⟩ := List.append_of_mem (h5 u _ r' hc)
  rw [lookup_eq_none.mpr (not_live_of_deleted h9 hr)]

/-- C53 as claimed for paths: no two creates of any kind give the same path. -/
def C53_claim : Prop :=
  ∀ (cfg : Config) (files : Files Nat) (calls : Nat → List (Call Nat)) (turns : List (Turn Nat)),
    ((created (returned (run cfg (start files calls) turns).hist)).map Item.path).Nodup

def demoConfig : Config := ⟨"d", "p", "bin"⟩

/-- `create_from_filepath` makes two items with two handles of one file. -/
theorem C53_false : ¬ C53_claim := by
  intro h
  exact absurd (h demoConfig ⟨true, [("d/x", 1)]⟩ (fun _ => [.fromPath "d/x" true 0, .fromPath "d/x" true 0])
    (List.replicate 10 (.thread 0))) (by decide +kernel)

section Demo

/-- Two threads create a file each at the same time; one name is taken. -/
def twoCreates : State Nat :=
  run demoConfig (start ⟨true, [("d/pA_1.bin", 9)]⟩ fun t => match t with
    | 0 => [.withData "A" 7 5, .get 0, .items]
    | 1 => [.withData "A" 8 6, .delete 0, .latest]
    | _ => [])
    (([0, 1, 0, 1, 0, 1, 0, 1, 0, 1, 0, 1, 0, 1, 0, 1] ++ [1, 1, 0, 0, 0, 1, 1, 1, 0, 0, 0, 1, 1, 1]).map .thread)

def twoCreatesResults : List (Nat × Result) := (returned twoCreates.hist).map fun x => (x.1, x.2.2)

example : twoCreatesResults =
    [(0, .ok (.item ⟨0, 7, "d/pA_0.bin"⟩)), (1, .ok (.item ⟨2, 8, "d/pA_2.bin"⟩)), (0, .ok (.found (some ⟨0, 7, "d/pA_0.bin"⟩))),
     (1, .ok (.flag true)), (0, .ok (.all [⟨2, 8, "d/pA_2.bin"⟩])), (1, .ok (.found (some ⟨2, 8, "d/pA_2.bin"⟩)))] := by
  decide +kernel

/-- One file twice in the storage: the second delete raises. -/
example : (returned (run demoConfig (start ⟨true, [("d/x", 1)]⟩ fun (t : Nat) => match t with
    | 0 => [.fromPath "d/x" true 0, .fromPath "d/x" true 0, .delete 0, .delete 1]
    | _ => []) (List.replicate 16 (.thread 0))).hist).map (fun x => x.2.2) =
    [.ok (.item ⟨0, 0, "d/x"⟩), .ok (.item ⟨1, 0, "d/x"⟩), .ok (.flag true), .error .runtimeError] := by
  decide +kernel

/-- A delete between the look-up and the write of an `update`: the file of the deleted item is back. -/
def revived : State Nat :=
  run demoConfig (start ⟨true, []⟩ fun t => match t with
    | 0 => [.withData "A" 7 5, .update 0 3]
    | 1 => [.delete 0, .items]
    | _ => []) ([0, 0, 0, 0, 0, 0, 0, 0, 0, 0, 1, 1, 1, 0, 0, 1, 1, 1].map .thread)

example : (returned revived.hist).map (fun x => (x.1, x.2.2)) =
    [(0, .ok (.item ⟨0, 7, "d/pA_0.bin"⟩)), (1, .ok (.flag true)), (0, .ok .nothing), (1, .ok (.all []))] ∧
    revived.files.content = [("d/pA_0.bin", 3)] := by decide +kernel

end Demo

end Crud

end Verif
