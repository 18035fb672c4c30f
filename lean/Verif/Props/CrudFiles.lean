import Verif.Props.Crud

/-!
# What is in the files of a CRUD storage (C162)

For all threads, calls and schedules, while nobody else changes the directory.
-/

namespace Verif

open Spec

namespace Crud

variable {D : Type u}

/-- Calls that write nothing but given data: `create_with_data`, `update`, and those that write nothing. -/
inductive Plain : Call D → Prop where
  | data (date : String) (stamp : Nat) (d : D) : Plain (.withData date stamp d)
  | update (h : Int) (d : D) : Plain (.update h d)
  | items : Plain .items
  | delete (h : Int) : Plain (.delete h)
  | get (h : Int) : Plain (.get h)
  | latest : Plain .latest

/-! ## What is true at all times -/

/-- The call has written its data, under the number `h`, and is here. -/
def Writes (c : Call D) (pc : Pc D) (date : String) (d : D) (h : Int) : Prop :=
  ∃ stamp, c = .withData date stamp d ∧
    (pc = .verify h ∨ (∃ i, pc = .append i ∧ i.handle = h) ∨ ∃ i, pc = .done (.ok (.item i)) ∧ i.handle = h)

/-- Some call has written this data, under this number. -/
def Wrote (s : State D) (date : String) (d : D) (h : Int) : Prop :=
  (∃ t c pc, (s.threads t).cur = some (c, pc) ∧ Writes c pc date d h) ∨
    ∃ t stamp i, .ret t (Call.withData date stamp d) (.ok (.item i)) ∈ s.hist ∧ i.handle = h

/-- The number under which a call is going to write. -/
def pending : Pc D → Option Int
  | .check h => some h
  | .save h => some h
  | _ => none

/-- A path for new files. -/
def NewPath (cfg : Config) (f0 : Dict String D) (counter : Int) (date : String) (h : Int) (path : String) : Prop :=
  h < counter ∧ path = cfg.path date h ∧ f0.get? path = none

/-- What a call knows where it is. -/
def Fine (cfg : Config) (f0 : Dict String D) (counter : Int) (c : Call D) : Pc D → Prop
  | .start => True
  | .number => ∃ date stamp d, c = .withData date stamp d
  | .check h => h < counter ∧ ∃ date stamp d, c = .withData date stamp d
  | .save h => ∃ date stamp d, c = .withData date stamp d ∧ NewPath cfg f0 counter date h (cfg.path date h)
  | .verify h => ∃ date stamp d, c = .withData date stamp d ∧ NewPath cfg f0 counter date h (cfg.path date h)
  | .append i => ∃ date stamp d, c = .withData date stamp d ∧ NewPath cfg f0 counter date i.handle i.path
  | .write p x => ∃ h date, c = .update h x ∧ NewPath cfg f0 counter date h p
  | .done r => ∀ i, r = .ok (.item i) → ∃ date stamp d, c = .withData date stamp d ∧ NewPath cfg f0 counter date i.handle i.path

/-- The data is in its file, or newer data; or somebody has asked for the file to be deleted. -/
def Kept (cfg : Config) (f : Files D) (hist : List (HEvent (Call D) Result)) (date : String) (d : D) (h : Int) : Prop :=
  (∃ v, .inv v (.delete h) ∈ hist) ∨
    ∃ x, f.content.get? (cfg.path date h) = some x ∧ (x = d ∨ ∃ v, .inv v (.update h x) ∈ hist)

structure Held (cfg : Config) (f0 : Dict String D) (s : State D) : Prop where
  todo : ∀ t, ∀ c ∈ (s.threads t).todo, Plain c
  cur : ∀ t c pc, (s.threads t).cur = some (c, pc) → Plain c ∧ .inv t c ∈ s.hist ∧ Fine cfg f0 s.counter c pc
  items : ∀ i ∈ s.items, ∃ date, NewPath cfg f0 s.counter date i.handle i.path
  rets : ∀ t c i, .ret t c (.ok (.item i)) ∈ s.hist →
    ∃ date stamp d, c = .withData date stamp d ∧ NewPath cfg f0 s.counter date i.handle i.path
  init : ∀ p x, f0.get? p = some x → s.files.content.get? p = some x
  fresh : ∀ t c pc h, (s.threads t).cur = some (c, pc) → pending pc = some h → ∀ date d, ¬ Wrote s date d h
  apart : ∀ t u c pc c' pc' h, (s.threads t).cur = some (c, pc) → (s.threads u).cur = some (c', pc') →
    pending pc = some h → pending pc' = some h → t = u
  held : ∀ date d h, Wrote s date d h → Kept cfg s.files s.hist date d h

theorem data_inj {date date' : String} {stamp stamp' : Nat} {d d' : D} (h : Call.withData date stamp d = .withData date' stamp' d') :
    date = date' ∧ stamp = stamp' ∧ d = d' := by
  unfold Call.withData at h
  injection h with h1 h2 h3
  refine ⟨h1, h2, ?_⟩
  have := congrFun (congrFun h3 "") ⟨true, []⟩
  simpa [Dict.set] using this

theorem NewPath.mono {cfg : Config} {f0 : Dict String D} {n n' : Int} {date : String} {h : Int} {p : String}
    (hp : NewPath cfg f0 n date h p) (hn : n ≤ n') : NewPath cfg f0 n' date h p := ⟨lt_of_lt_of_le hp.1 hn, hp.2⟩

theorem Fine.mono {cfg : Config} {f0 : Dict String D} {n n' : Int} {c : Call D} {pc : Pc D} (h : Fine cfg f0 n c pc) (hn : n ≤ n') :
    Fine cfg f0 n' c pc := by
  cases pc with
  | start => trivial
  | number => exact h
  | check k => exact ⟨lt_of_lt_of_le h.1 hn, h.2⟩
  | save k => obtain ⟨date, stamp, d, h1, h2⟩ := h; exact ⟨date, stamp, d, h1, h2.mono hn⟩
  | verify k => obtain ⟨date, stamp, d, h1, h2⟩ := h; exact ⟨date, stamp, d, h1, h2.mono hn⟩
  | append i => obtain ⟨date, stamp, d, h1, h2⟩ := h; exact ⟨date, stamp, d, h1, h2.mono hn⟩
  | write p x => obtain ⟨k, date, h1, h2⟩ := h; exact ⟨k, date, h1, h2.mono hn⟩
  | done r => intro i hi; obtain ⟨date, stamp, d, h1, h2⟩ := h i hi; exact ⟨date, stamp, d, h1, h2.mono hn⟩

theorem Kept.mono {cfg : Config} {f : Files D} {hist hist' : List (HEvent (Call D) Result)} {date : String} {d : D} {h : Int}
    (hk : Kept cfg f hist date d h) (hh : ∀ e ∈ hist, e ∈ hist') : Kept cfg f hist' date d h := by
  rcases hk with ⟨v, hv⟩ | ⟨x, h1, h2⟩
  · exact .inl ⟨v, hh _ hv⟩
  · refine .inr ⟨x, h1, h2.imp_right ?_⟩
    rintro ⟨v, hv⟩
    exact ⟨v, hh _ hv⟩

/-- what has been written has a number below the counter -/
theorem Held.wrote_lt {cfg : Config} {f0 : Dict String D} {s : State D} (H : Held cfg f0 s) {date : String} {d : D} {h : Int}
    (hw : Wrote s date d h) : h < s.counter := by
  rcases hw with ⟨t, c, pc, hc, stamp, rfl, hp⟩ | ⟨t, stamp, i, hr, rfl⟩
  · have hf := (H.cur t _ _ hc).2.2
    rcases hp with rfl | ⟨i, rfl, rfl⟩ | ⟨i, rfl, rfl⟩
    · obtain ⟨_, _, _, -, h2⟩ := hf; exact h2.1
    · obtain ⟨_, _, _, -, h2⟩ := hf; exact h2.1
    · obtain ⟨_, _, _, -, h2⟩ := hf i rfl; exact h2.1
  · obtain ⟨_, _, _, -, h2⟩ := H.rets _ _ _ hr; exact h2.1

theorem pending_lt {cfg : Config} {f0 : Dict String D} {n : Int} {c : Call D} {pc : Pc D} (hf : Fine cfg f0 n c pc) {h : Int}
    (hp : pending pc = some h) : h < n := by
  cases pc <;> simp only [pending, Option.some.injEq, reduceCtorEq] at hp
  · subst hp; exact hf.1
  · subst hp; obtain ⟨_, _, _, -, h2⟩ := hf; exact h2.1

/-- A turn of thread `t` inside a call. -/
theorem Held.advance {cfg : Config} {f0 : Dict String D} {s : State D} (H : Held cfg f0 s) {t : Nat} {c : Call D} {pc pc' : Pc D}
    (hc : (s.threads t).cur = some (c, pc)) (counter : Int) (items : List Item) (files : Files D)
    (hn : s.counter ≤ counter) (hf : Fine cfg f0 counter c pc')
    (hi : ∀ i ∈ items, ∃ date, NewPath cfg f0 counter date i.handle i.path)
    (h0 : ∀ p x, f0.get? p = some x → files.content.get? p = some x)
    (hp : ∀ h, pending pc' = some h → pending pc = some h ∨ h = s.counter)
    (hw : ∀ date d h, Writes c pc' date d h → Writes c pc date d h ∨ pending pc = some h ∧ pending pc' = none)
    (hk : ∀ date d h, Wrote s date d h ∨ Writes c pc' date d h → Kept cfg files s.hist date d h) :
    Held cfg f0 { s with counter := counter, items := items, files := files,
                         threads := s.setThread t ⟨(s.threads t).todo, some (c, pc')⟩ } := by
  have hcur : ∀ {u c1 pc1}, (s.setThread t ⟨(s.threads t).todo, some (c, pc')⟩ u).cur = some (c1, pc1) →
      (u = t ∧ c1 = c ∧ pc1 = pc') ∨ (u ≠ t ∧ (s.threads u).cur = some (c1, pc1)) := by
    intro u c1 pc1 h
    by_cases hu : u = t
    · subst hu
      rw [setThread_self] at h
      simp only [Option.some.injEq, Prod.mk.injEq] at h
      exact .inl ⟨rfl, h.1.symm, h.2.symm⟩
    · rw [setThread_ne _ _ hu] at h
      exact .inr ⟨hu, h⟩
  have hwr : ∀ {date d h}, Wrote { s with counter := counter, items := items, files := files,
                                          threads := s.setThread t ⟨(s.threads t).todo, some (c, pc')⟩ } date d h → Wrote s date d h ∨ Writes c pc' date d h := by
    intro date d h hw
    rcases hw with ⟨u, c1, pc1, h1, h2⟩ | hr
    · rcases hcur h1 with ⟨-, rfl, rfl⟩ | ⟨-, h1⟩
      · exact .inr h2
      · exact .inl (.inl ⟨u, c1, pc1, h1, h2⟩)
    · exact .inl (.inr hr)
  obtain ⟨hpl, hinv, -⟩ := H.cur t c pc hc
  refine ⟨fun u c1 h => ?_, fun u c1 pc1 h => ?_, hi, fun u c1 i h => ?_, h0, fun u c1 pc1 h h1 h2 date d hw' => ?_,
    fun u v c1 pc1 c2 pc2 h h1 h2 h3 h4 => ?_, fun date d h hw' => hk date d h (hwr hw')⟩
  · by_cases hu : u = t
    · subst hu
      simp only [setThread_self] at h
      exact H.todo u c1 h
    · simp only [setThread_ne _ _ hu] at h
      exact H.todo u c1 h
  · rcases hcur h with ⟨rfl, rfl, rfl⟩ | ⟨-, h⟩
    · exact ⟨hpl, hinv, hf⟩
    · obtain ⟨a, b, e⟩ := H.cur u c1 pc1 h
      exact ⟨a, b, e.mono hn⟩
  · obtain ⟨date, stamp, d, e, hp⟩ := H.rets u c1 i h
    exact ⟨date, stamp, d, e, hp.mono hn⟩
  · rcases hcur h1 with ⟨rfl, rfl, rfl⟩ | ⟨hu, h1⟩
    · rcases hwr hw' with hw1 | hw1
      · rcases hp h h2 with h3 | rfl
        · exact H.fresh u c1 pc h hc h3 date d hw1
        · exact lt_irrefl _ (H.wrote_lt hw1)
      · rcases hw _ _ _ hw1 with hw2 | ⟨-, h3⟩
        · rcases hp h h2 with h3 | rfl
          · exact H.fresh u c1 pc h hc h3 date d (.inl ⟨u, c1, pc, hc, hw2⟩)
          · exact lt_irrefl _ (H.wrote_lt (.inl ⟨u, c1, pc, hc, hw2⟩))
        · rw [h3] at h2; cases h2
    · rcases hwr hw' with hw1 | hw1
      · exact H.fresh u c1 pc1 h h1 h2 date d hw1
      · rcases hw _ _ _ hw1 with hw2 | ⟨h3, -⟩
        · exact H.fresh u c1 pc1 h h1 h2 date d (.inl ⟨t, c, pc, hc, hw2⟩)
        · exact hu (H.apart u t c1 pc1 c pc h h1 hc h2 h3)
  · rcases hcur h1 with ⟨rfl, rfl, rfl⟩ | ⟨hu, h1'⟩ <;> rcases hcur h2 with ⟨rfl, rfl, rfl⟩ | ⟨hv, h2'⟩
    · rfl
    · rcases hp h h3 with h5 | rfl
      · exact H.apart u v c1 pc c2 pc2 h hc h2' h5 h4
      · exact absurd (pending_lt (H.cur v c2 pc2 h2').2.2 h4) (lt_irrefl _)
    · rcases hp h h4 with h5 | rfl
      · exact H.apart u v c1 pc1 c2 pc h h1' hc h3 h5
      · exact absurd (pending_lt (H.cur u c1 pc1 h1').2.2 h3) (lt_irrefl _)
    · exact H.apart u v c1 pc1 c2 pc2 h h1' h2' h3 h4

theorem not_writes {c : Call D} {pc : Pc D} (h1 : ∀ h, pc ≠ .verify h) (h2 : ∀ i, pc ≠ .append i) (h3 : ∀ i, pc ≠ .done (.ok (.item i)))
    (date : String) (d : D) (h : Int) : ¬ Writes c pc date d h := by
  rintro ⟨_, -, h | ⟨i, h, -⟩ | ⟨i, h, -⟩⟩
  · exact h1 _ h
  · exact h2 _ h
  · exact h3 _ h

/-- A turn that leaves the files alone and writes nothing new. -/
theorem Held.look {cfg : Config} {f0 : Dict String D} {s : State D} (H : Held cfg f0 s) {t : Nat} {c : Call D} {pc pc' : Pc D}
    (hc : (s.threads t).cur = some (c, pc)) (hf : Fine cfg f0 s.counter c pc')
    (hp : ∀ h, pending pc' = some h → pending pc = some h) (hw : ∀ date d h, Writes c pc' date d h → Writes c pc date d h) :
    Held cfg f0 { s with counter := s.counter, items := s.items, files := s.files,
                         threads := s.setThread t ⟨(s.threads t).todo, some (c, pc')⟩ } :=
  H.advance hc _ _ _ le_rfl hf H.items H.init (fun h hh => .inl (hp h hh)) (fun _ _ _ h => .inl (hw _ _ _ h)) fun date d h hh => by
    rcases hh with hh | hh
    · exact H.held _ _ _ hh
    · exact H.held _ _ _ (.inl ⟨t, c, pc, hc, hw _ _ _ hh⟩)

theorem step_held {cfg : Config} {f0 : Dict String D} {s : State D} (H : Held cfg f0 s) (t : Nat) : Held cfg f0 (step cfg s (.thread t)) := by
  rw [step]
  cases hcur : (s.threads t).cur with
  | none =>
    simp only
    cases htodo : (s.threads t).todo with
    | nil => exact H
    | cons c cs =>
      simp only
      have hold : ∀ {u c1 pc1}, (s.setThread t ⟨cs, some (c, .start)⟩ u).cur = some (c1, pc1) →
          (u = t ∧ c1 = c ∧ pc1 = .start) ∨ (s.threads u).cur = some (c1, pc1) := by
        intro u c1 pc1 h
        by_cases hu : u = t
        · subst hu
          rw [setThread_self] at h
          simp only [Option.some.injEq, Prod.mk.injEq] at h
          exact .inl ⟨rfl, h.1.symm, h.2.symm⟩
        · rw [setThread_ne _ _ hu] at h
          exact .inr h
      have hwr : ∀ {date d h}, Wrote { s with threads := s.setThread t ⟨cs, some (c, .start)⟩, hist := s.hist ++ [.inv t c] } date d h →
          Wrote s date d h := by
        rintro date d h (⟨u, c1, pc1, h1, h2⟩ | ⟨u, stamp, i, h1, h2⟩)
        · rcases hold h1 with ⟨-, rfl, rfl⟩ | h1
          · exact absurd h2 (not_writes (by simp) (by simp) (by simp) _ _ _)
          · exact .inl ⟨u, c1, pc1, h1, h2⟩
        · simp only [List.mem_append, List.mem_singleton, reduceCtorEq, or_false] at h1
          exact .inr ⟨u, stamp, i, h1, h2⟩
      refine ⟨fun u c1 h => ?_, fun u c1 pc1 h => ?_, H.items, fun u c1 i h => ?_, H.init, fun u c1 pc1 h h1 h2 date d hw => ?_,
        fun u v c1 pc1 c2 pc2 h h1 h2 h3 h4 => ?_, fun date d h hw => (H.held date d h (hwr hw)).mono fun e he => by simp [he]⟩
      · by_cases hu : u = t
        · subst hu
          simp only [setThread_self] at h
          exact H.todo u c1 (by rw [htodo]; simp [h])
        · simp only [setThread_ne _ _ hu] at h
          exact H.todo u c1 h
      · rcases hold h with ⟨rfl, rfl, rfl⟩ | h
        · exact ⟨H.todo u c1 (by rw [htodo]; simp), by simp, trivial⟩
        · obtain ⟨a, b, e⟩ := H.cur u c1 pc1 h
          exact ⟨a, by simp [b], e⟩
      · simp only [List.mem_append, List.mem_singleton, reduceCtorEq, or_false] at h
        exact H.rets u c1 i h
      · rcases hold h1 with ⟨-, -, rfl⟩ | h1
        · cases h2
        · exact H.fresh u c1 pc1 h h1 h2 date d (hwr hw)
      · rcases hold h1 with ⟨-, -, rfl⟩ | h1
        · cases h3
        · rcases hold h2 with ⟨-, -, rfl⟩ | h2
          · cases h4
          · exact H.apart u v c1 pc1 c2 pc2 h h1 h2 h3 h4
  | some p =>
    obtain ⟨c, pc⟩ := p
    obtain ⟨hpl, hinv, hfine⟩ := H.cur t c pc hcur
    cases pc with
    | done r =>
      simp only
      have hold : ∀ {u c1 pc1}, (s.setThread t ⟨(s.threads t).todo, none⟩ u).cur = some (c1, pc1) → (s.threads u).cur = some (c1, pc1) := by
        intro u c1 pc1 h
        by_cases hu : u = t
        · subst hu
          rw [setThread_self] at h
          cases h
        · rwa [setThread_ne _ _ hu] at h
      have hwr : ∀ {date d h}, Wrote { s with threads := s.setThread t ⟨(s.threads t).todo, none⟩, hist := s.hist ++ [.ret t c r] } date d h →
          Wrote s date d h := by
        rintro date d h (⟨u, c1, pc1, h1, h2⟩ | ⟨u, stamp, i, h1, h2⟩)
        · exact .inl ⟨u, c1, pc1, hold h1, h2⟩
        · simp only [List.mem_append, List.mem_singleton] at h1
          rcases h1 with h1 | h1
          · exact .inr ⟨u, stamp, i, h1, h2⟩
          · injection h1 with e1 e2 e3
            subst e1; subst e2; subst e3
            exact .inl ⟨u, _, _, hcur, stamp, rfl, .inr (.inr ⟨i, rfl, h2⟩)⟩
      refine ⟨fun u c1 h => ?_, fun u c1 pc1 h => ?_, H.items, fun u c1 i h => ?_, H.init,
        fun u c1 pc1 h h1 h2 date d hw => H.fresh u c1 pc1 h (hold h1) h2 date d (hwr hw),
        fun u v c1 pc1 c2 pc2 h h1 h2 h3 h4 => H.apart u v c1 pc1 c2 pc2 h (hold h1) (hold h2) h3 h4,
        fun date d h hw => (H.held date d h (hwr hw)).mono fun e he => by simp [he]⟩
      · by_cases hu : u = t
        · subst hu
          simp only [setThread_self] at h
          exact H.todo u c1 h
        · simp only [setThread_ne _ _ hu] at h
          exact H.todo u c1 h
      · obtain ⟨a, b, e⟩ := H.cur u c1 pc1 (hold h)
        exact ⟨a, by simp [b], e⟩
      · simp only [List.mem_append, List.mem_singleton] at h
        rcases h with h | h
        · exact H.rets u c1 i h
        · injection h with e1 e2 e3
          subst e1; subst e2; subst e3
          exact hfine i rfl
    | start =>
      cases hpl with
      | data date stamp d =>
        simp only [Call.withData, Crud.advance]
        refine H.look hcur ?_ ?_ ?_
        · split
          · exact ⟨date, stamp, d, rfl⟩
          · intro i hi; cases hi
        · intro h hh; split at hh <;> cases hh
        · intro date d h hh
          exfalso
          revert hh
          split
          · exact not_writes (by simp) (by simp) (by simp) _ _ _
          · exact not_writes (by simp) (by simp) (by simp) _ _ _
      | update h x =>
        simp only [Crud.advance]
        cases hl : s.items.find? (fun i => i.handle == h) with
        | none =>
          exact H.look hcur (by intro i hi; cases hi) (by intro h hh; cases hh) fun _ _ _ hh =>
            absurd hh (not_writes (by simp) (by simp) (by simp) _ _ _)
        | some i =>
          obtain ⟨hm, rfl⟩ := mem_of_lookup (show lookup h s.items = some i from hl)
          obtain ⟨date, hn⟩ := H.items i hm
          exact H.look hcur ⟨i.handle, date, rfl, hn⟩ (by intro h hh; cases hh) fun _ _ _ hh =>
            absurd hh (not_writes (by simp) (by simp) (by simp) _ _ _)
      | items =>
        exact H.look hcur (by intro i hi; cases hi) (by intro h hh; cases hh) fun _ _ _ hh =>
          absurd hh (not_writes (by simp) (by simp) (by simp) _ _ _)
      | delete h =>
        simp only [Crud.advance]
        cases hl : s.items.find? (fun i => i.handle == h) with
        | none =>
          exact H.look hcur (by intro i hi; cases hi) (by intro h hh; cases hh) fun _ _ _ hh =>
            absurd hh (not_writes (by simp) (by simp) (by simp) _ _ _)
        | some i =>
          obtain ⟨hm, rfl⟩ := mem_of_lookup (show lookup h s.items = some i from hl)
          obtain ⟨date, hn⟩ := H.items i hm
          have hi : ∀ j ∈ s.items.erase i, ∃ date, NewPath cfg f0 s.counter date j.handle j.path := fun j hj =>
            H.items j (List.mem_of_mem_erase hj)
          simp only
          split
          · refine H.advance hcur _ _ _ le_rfl (by intro i hi; cases hi) hi ?_ (by intro h hh; cases hh)
              (fun _ _ _ hh => absurd hh (not_writes (by simp) (by simp) (by simp) _ _ _)) ?_
            · intro p x hpx
              rw [Dict.get?_erase_ne]
              · exact H.init p x hpx
              · rintro rfl
                rw [hn.2.2] at hpx
                cases hpx
            · rintro date' d' h' (hw | hw)
              · rcases H.held date' d' h' hw with hd | ⟨x, h1, h2⟩
                · exact .inl hd
                · by_cases he : cfg.path date' h' = i.path
                  · rw [hn.2.1] at he
                    have := path_inj cfg he
                    subst this
                    exact .inl ⟨t, hinv⟩
                  · exact .inr ⟨x, by rw [Dict.get?_erase_ne (fun h => he h.symm)]; exact h1, h2⟩
              · exact absurd hw (not_writes (by simp) (by simp) (by simp) _ _ _)
          · exact H.advance hcur _ _ _ le_rfl (by intro i hi; cases hi) hi H.init (by intro h hh; cases hh)
              (fun _ _ _ hh => absurd hh (not_writes (by simp) (by simp) (by simp) _ _ _)) (by
                rintro date' d' h' (hw | hw)
                · exact H.held date' d' h' hw
                · exact absurd hw (not_writes (by simp) (by simp) (by simp) _ _ _))
      | get h =>
        exact H.look hcur (by intro i hi; cases hi) (by intro h hh; cases hh) fun _ _ _ hh =>
          absurd hh (not_writes (by simp) (by simp) (by simp) _ _ _)
      | latest =>
        exact H.look hcur (by intro i hi; cases hi) (by intro h hh; cases hh) fun _ _ _ hh =>
          absurd hh (not_writes (by simp) (by simp) (by simp) _ _ _)
    | number =>
      obtain ⟨date, stamp, d, rfl⟩ := hfine
      simp only [Call.withData, Crud.advance]
      refine H.advance hcur _ _ _ (by omega) ⟨by omega, date, stamp, d, rfl⟩ (fun i hi => ?_) H.init ?_
        (fun _ _ _ hh => absurd hh (not_writes (by simp) (by simp) (by simp) _ _ _)) ?_
      · obtain ⟨date, h⟩ := H.items i hi
        exact ⟨date, h.mono (by omega)⟩
      · intro h hh
        simp only [pending, Option.some.injEq] at hh
        exact .inr hh.symm
      · rintro date' d' h' (hw | hw)
        · exact H.held date' d' h' hw
        · exact absurd hw (not_writes (by simp) (by simp) (by simp) _ _ _)
    | check h =>
      obtain ⟨hlt, date, stamp, d, rfl⟩ := hfine
      simp only [Call.withData, Crud.advance]
      refine H.look hcur ?_ ?_ ?_
      · split
        · exact ⟨date, stamp, d, rfl⟩
        · next hex =>
          refine ⟨date, stamp, d, rfl, hlt, rfl, ?_⟩
          cases hg : f0.get? (cfg.path date h) with
          | none => rfl
          | some x => exact absurd (by rw [H.init _ x hg]; rfl) hex
      · intro k hk
        split at hk
        · cases hk
        · exact hk
      · intro date d h hh
        exfalso
        revert hh
        split
        · exact not_writes (by simp) (by simp) (by simp) _ _ _
        · exact not_writes (by simp) (by simp) (by simp) _ _ _
    | save h =>
      obtain ⟨date, stamp, d, rfl, hn⟩ := hfine
      simp only [Call.withData, Crud.advance]
      by_cases hpres : s.files.present = true
      · simp only [hpres, if_true]
        refine H.advance hcur _ _ _ le_rfl ⟨date, stamp, d, rfl, hn⟩ H.items ?_ (by intro h hh; cases hh) ?_ ?_
        · intro p x hpx
          rw [Dict.get?_set, if_neg]
          · exact H.init p x hpx
          · rintro rfl
            rw [hn.2.2] at hpx
            cases hpx
        · rintro date' d' h' ⟨_, -, hh | ⟨i, hh, -⟩ | ⟨i, hh, -⟩⟩
          · cases hh; exact .inr ⟨rfl, rfl⟩
          · cases hh
          · cases hh
        · rintro date' d' h' (hw | ⟨stamp', he, hh | ⟨i, hh, -⟩ | ⟨i, hh, -⟩⟩)
          · rcases H.held date' d' h' hw with hd | ⟨x, h1, h2⟩
            · exact .inl hd
            · by_cases he : cfg.path date' h' = cfg.path date h
              · have := path_inj cfg he
                subst this
                exact absurd hw (H.fresh t _ _ _ hcur rfl date' d')
              · exact .inr ⟨x, by rw [Dict.get?_set, if_neg (fun h => he h.symm)]; exact h1, h2⟩
          · cases hh
            obtain ⟨rfl, -, rfl⟩ := data_inj (show Call.withData date stamp d = Call.withData date' stamp' d' from he)
            exact .inr ⟨d, by rw [Dict.get?_set, if_pos rfl], .inl rfl⟩
          · cases hh
          · cases hh
      · simp only [hpres]
        exact H.look hcur (by intro i hi; cases hi) (by intro h hh; cases hh) fun _ _ _ hh =>
          absurd hh (not_writes (by simp) (by simp) (by simp) _ _ _)
    | verify h =>
      obtain ⟨date, stamp, d, rfl, hn⟩ := hfine
      simp only [Call.withData, Crud.advance]
      refine H.look hcur ?_ ?_ ?_
      · split
        · exact ⟨date, stamp, d, rfl, hn⟩
        · intro i hi; cases hi
      · intro k hk
        split at hk <;> cases hk
      · intro date' d' h' hh
        split at hh
        · obtain ⟨stamp', he, hh | ⟨i, hh, hi⟩ | ⟨i, hh, -⟩⟩ := hh
          · cases hh
          · cases hh
            exact ⟨stamp', he, .inl (by rw [← hi])⟩
          · cases hh
        · exact absurd hh (not_writes (by simp) (by simp) (by simp) _ _ _)
    | append i =>
      obtain ⟨date, stamp, d, rfl, hn⟩ := hfine
      simp only [Call.withData, Crud.advance]
      refine H.advance hcur _ _ _ le_rfl ?_ ?_ H.init (by intro h hh; cases hh) ?_ ?_
      · intro j hj
        cases hj
        exact ⟨date, stamp, d, rfl, hn⟩
      · intro j hj
        rcases List.mem_append.mp hj with hj | hj
        · exact H.items j hj
        · rw [List.mem_singleton.mp hj]
          exact ⟨date, hn⟩
      · rintro date' d' h' ⟨stamp', he, hh | ⟨j, hh, -⟩ | ⟨j, hh, hj⟩⟩
        · cases hh
        · cases hh
        · cases hh
          exact .inl ⟨stamp', he, .inr (.inl ⟨i, rfl, hj⟩)⟩
      · rintro date' d' h' (hw | ⟨stamp', he, hh | ⟨j, hh, -⟩ | ⟨j, hh, hj⟩⟩)
        · exact H.held date' d' h' hw
        · cases hh
        · cases hh
        · cases hh
          exact H.held date' d' h' (.inl ⟨t, _, _, hcur, stamp', he, .inr (.inl ⟨i, rfl, hj⟩)⟩)
    | write p x =>
      obtain ⟨h, date, rfl, hn⟩ := hfine
      simp only [Crud.advance]
      refine H.advance hcur _ _ _ le_rfl (by intro i hi; cases hi) H.items ?_ (by intro h hh; cases hh)
        (fun _ _ _ hh => absurd hh (not_writes (by simp) (by simp) (by simp) _ _ _)) ?_
      · intro q y hq
        rw [Dict.get?_set, if_neg]
        · exact H.init q y hq
        · rintro rfl
          rw [hn.2.2] at hq
          cases hq
      · rintro date' d' h' (hw | hw)
        · rcases H.held date' d' h' hw with hd | ⟨y, h1, h2⟩
          · exact .inl hd
          · by_cases he : cfg.path date' h' = p
            · have hh : h' = h := path_inj cfg (he.trans hn.2.1)
              subst hh
              exact .inr ⟨x, by rw [Dict.get?_set, if_pos he.symm], .inr ⟨t, hinv⟩⟩
            · exact .inr ⟨y, by rw [Dict.get?_set, if_neg (fun h => he h.symm)]; exact h1, h2⟩
        · exact absurd hw (not_writes (by simp) (by simp) (by simp) _ _ _)

theorem held_start (cfg : Config) (files : Files D) (calls : Nat → List (Call D)) (h : ∀ t, ∀ c ∈ calls t, Plain c) :
    Held cfg files.content (start files calls) where
  todo t c hc := h t c hc
  cur t c pc hc := by cases hc
  items i hi := by cases hi
  rets t c i hi := by cases hi
  init p x hp := hp
  fresh t c pc h hc := by cases hc
  apart t u c pc c' pc' h hc := by cases hc
  held date d h hw := by
    rcases hw with ⟨t, c, pc, hc, -⟩ | ⟨t, stamp, i, hi, -⟩
    · cases hc
    · cases hi

theorem run_held {cfg : Config} {f0 : Dict String D} {s : State D} (H : Held cfg f0 s) (turns : List Nat) :
    Held cfg f0 (run cfg s (turns.map .thread)) := by
  induction turns generalizing s with
  | nil => exact H
  | cons t turns ih => exact ih (step_held H t)

/-! ## Deleted files -/

/-- The number that a call has taken for its file. -/
def numOf : Pc D → Option Int
  | .check h => some h
  | .save h => some h
  | .verify h => some h
  | .append i => some i.handle
  | _ => none

/-- The call has made its item. -/
def MakesAt (c : Call D) (pc : Pc D) (date : String) (d : D) (h : Int) : Prop :=
  ∃ stamp, c = .withData date stamp d ∧ ((∃ i, pc = .append i ∧ i.handle = h) ∨ ∃ i, pc = .done (.ok (.item i)) ∧ i.handle = h)

/-- Some call has made an item with this number. -/
def Made (s : State D) (date : String) (d : D) (h : Int) : Prop :=
  (∃ t c pc, (s.threads t).cur = some (c, pc) ∧ MakesAt c pc date d h) ∨
    ∃ t stamp i, .ret t (Call.withData date stamp d) (.ok (.item i)) ∈ s.hist ∧ i.handle = h

/-- A `delete` has deleted the file. -/
def Deleted (s : State D) (h : Int) : Prop :=
  (∃ t, (s.threads t).cur = some (.delete h, .done (.ok (.flag true)))) ∨ ∃ t, .ret t (.delete h) (.ok (.flag true)) ∈ s.hist

theorem MakesAt.writes {c : Call D} {pc : Pc D} {date : String} {d : D} {h : Int} (hm : MakesAt c pc date d h) : Writes c pc date d h := by
  obtain ⟨stamp, hc, hp⟩ := hm
  exact ⟨stamp, hc, .inr hp⟩

theorem Made.wrote {s : State D} {date : String} {d : D} {h : Int} (hm : Made s date d h) : Wrote s date d h := by
  rcases hm with ⟨t, c, pc, hc, hp⟩ | hr
  · exact .inl ⟨t, c, pc, hc, hp.writes⟩
  · exact .inr hr

theorem numOf_lt {cfg : Config} {f0 : Dict String D} {n : Int} {c : Call D} {pc : Pc D} (hf : Fine cfg f0 n c pc) {h : Int}
    (hp : numOf pc = some h) : h < n := by
  cases pc <;> simp only [numOf, Option.some.injEq, reduceCtorEq] at hp
  · subst hp; exact hf.1
  all_goals subst hp; obtain ⟨_, _, _, -, h2⟩ := hf; exact h2.1

structure Gone (cfg : Config) (s : State D) : Prop where
  keys : s.files.content.keys.Nodup
  same : ∀ date d date' d' h, Wrote s date d h → Wrote s date' d' h → date = date'
  made : ∀ i ∈ s.items, ∃ date d, Made s date d i.handle ∧ i.path = cfg.path date i.handle
  nodup : (s.items.map Item.handle).Nodup
  out : ∀ i ∈ s.items, ∀ t c pc, (s.threads t).cur = some (c, pc) → numOf pc ≠ some i.handle
  one : ∀ t u c pc c' pc' h, (s.threads t).cur = some (c, pc) → (s.threads u).cur = some (c', pc') →
    numOf pc = some h → numOf pc' = some h → t = u
  dead : ∀ h, Deleted s h → h < s.counter ∧ (∀ i ∈ s.items, i.handle ≠ h) ∧
    ∀ t c pc, (s.threads t).cur = some (c, pc) → numOf pc ≠ some h
  gone : ∀ h date d, Deleted s h → Wrote s date d h →
    (∃ v x, .inv v (.update h x) ∈ s.hist) ∨ s.files.content.get? (cfg.path date h) = none

/-- A turn of thread `t` inside a call. -/
theorem Gone.advance {cfg : Config} {f0 : Dict String D} {s : State D} (H : Held cfg f0 s) (G : Gone cfg s) {t : Nat} {c : Call D}
    {pc pc' : Pc D} (hc : (s.threads t).cur = some (c, pc)) (counter : Int) (items : List Item) (files : Files D)
    (hn : s.counter ≤ counter) (hkeys : files.content.keys.Nodup)
    (hnum : ∀ h, numOf pc' = some h → numOf pc = some h ∨ h = s.counter)
    (hw : ∀ date d h, Writes c pc' date d h → Writes c pc date d h ∨ pending pc = some h)
    (hmk : ∀ date d h, MakesAt c pc date d h → MakesAt c pc' date d h)
    (hit : ∀ i ∈ items, i ∈ s.items ∨
      numOf pc = some i.handle ∧ numOf pc' = none ∧ ∃ date d, MakesAt c pc' date d i.handle ∧ i.path = cfg.path date i.handle)
    (hnd : (items.map Item.handle).Nodup)
    (hdel : ∀ h, c = .delete h → pc' = .done (.ok (.flag true)) → h < counter ∧ (∀ i ∈ items, i.handle ≠ h) ∧
      (∀ u c1 pc1, (s.threads u).cur = some (c1, pc1) → numOf pc1 ≠ some h) ∧
      ∀ date d, Wrote s date d h → files.content.get? (cfg.path date h) = none)
    (hgone : ∀ h date, Deleted s h → s.files.content.get? (cfg.path date h) = none →
      (∃ v x, .inv v (.update h x) ∈ s.hist) ∨ files.content.get? (cfg.path date h) = none) :
    Gone cfg { s with counter := counter, items := items, files := files,
                      threads := s.setThread t ⟨(s.threads t).todo, some (c, pc')⟩ } := by
  have hcur : ∀ {u c1 pc1}, (s.setThread t ⟨(s.threads t).todo, some (c, pc')⟩ u).cur = some (c1, pc1) →
      (u = t ∧ c1 = c ∧ pc1 = pc') ∨ (u ≠ t ∧ (s.threads u).cur = some (c1, pc1)) := by
    intro u c1 pc1 h
    by_cases hu : u = t
    · subst hu
      rw [setThread_self] at h
      simp only [Option.some.injEq, Prod.mk.injEq] at h
      exact .inl ⟨rfl, h.1.symm, h.2.symm⟩
    · rw [setThread_ne _ _ hu] at h
      exact .inr ⟨hu, h⟩
  have hwr : ∀ {date d h}, Wrote { s with counter := counter, items := items, files := files,
                                          threads := s.setThread t ⟨(s.threads t).todo, some (c, pc')⟩ } date d h →
      Wrote s date d h ∨ pending pc = some h ∧ Writes c pc' date d h := by
    rintro date d h (⟨u, c1, pc1, h1, h2⟩ | hr)
    · rcases hcur h1 with ⟨-, rfl, rfl⟩ | ⟨-, h1⟩
      · rcases hw _ _ _ h2 with h3 | h3
        · exact .inl (.inl ⟨t, _, _, hc, h3⟩)
        · exact .inr ⟨h3, h2⟩
      · exact .inl (.inl ⟨u, c1, pc1, h1, h2⟩)
    · exact .inl (.inr hr)
  have hself : (s.setThread t ⟨(s.threads t).todo, some (c, pc')⟩ t).cur = some (c, pc') := by rw [setThread_self]
  have hmd : ∀ {date d h}, Made s date d h → Made { s with counter := counter, items := items, files := files,
                                                           threads := s.setThread t ⟨(s.threads t).todo, some (c, pc')⟩ } date d h := by
    rintro date d h (⟨u, c1, pc1, h1, h2⟩ | hr)
    · by_cases hu : u = t
      · subst hu
        rw [hc] at h1
        simp only [Option.some.injEq, Prod.mk.injEq] at h1
        obtain ⟨rfl, rfl⟩ := h1
        exact .inl ⟨u, c, pc', hself, hmk _ _ _ h2⟩
      · exact .inl ⟨u, c1, pc1, by show (s.setThread t _ u).cur = _; rw [setThread_ne _ _ hu]; exact h1, h2⟩
    · exact .inr hr
  have hpn : ∀ h, pending pc = some h → numOf pc = some h := by
    intro h hh
    cases pc <;> simp_all [pending, numOf]
  have hdl : ∀ {h}, Deleted { s with counter := counter, items := items, files := files,
                                     threads := s.setThread t ⟨(s.threads t).todo, some (c, pc')⟩ } h →
      Deleted s h ∨ c = .delete h ∧ pc' = .done (.ok (.flag true)) := by
    rintro h (⟨u, hu⟩ | hr)
    · rcases hcur hu with ⟨-, h1, h2⟩ | ⟨-, h1⟩
      · exact .inr ⟨h1.symm, h2.symm⟩
      · exact .inl (.inl ⟨u, h1⟩)
    · exact .inl (.inr hr)
  have hnum' : ∀ {u c1 pc1 h}, (s.setThread t ⟨(s.threads t).todo, some (c, pc')⟩ u).cur = some (c1, pc1) → numOf pc1 = some h →
      (∃ c2 pc2, (s.threads u).cur = some (c2, pc2) ∧ numOf pc2 = some h) ∨ u = t ∧ h = s.counter := by
    intro u c1 pc1 h h1 h2
    rcases hcur h1 with ⟨rfl, rfl, rfl⟩ | ⟨-, h1⟩
    · rcases hnum h h2 with h3 | h3
      · exact .inl ⟨_, _, hc, h3⟩
      · exact .inr ⟨rfl, h3⟩
    · exact .inl ⟨_, _, h1, h2⟩
  have hlt : ∀ {u c1 pc1 h}, (s.threads u).cur = some (c1, pc1) → numOf pc1 = some h → h < s.counter :=
    fun h1 h2 => numOf_lt (H.cur _ _ _ h1).2.2 h2
  have hclt : ∀ i ∈ s.items, i.handle < s.counter := fun i hi => by
    obtain ⟨_, h⟩ := H.items i hi
    exact h.1
  refine ⟨hkeys, fun date d date' d' h h1 h2 => ?_, fun i hi => ?_, hnd, fun i hi u c1 pc1 h1 h2 => ?_,
    fun u v c1 pc1 c2 pc2 h h1 h2 h3 h4 => ?_, fun h hd => ?_, fun h date d hd hw' => ?_⟩
  · rcases hwr h1 with h1 | ⟨h1, h1'⟩ <;> rcases hwr h2 with h2 | ⟨h2, h2'⟩
    · exact G.same _ _ _ _ _ h1 h2
    · exact absurd h1 (H.fresh t c pc h hc h2 _ _)
    · exact absurd h2 (H.fresh t c pc h hc h1 _ _)
    · obtain ⟨stamp, rfl, -⟩ := h1'
      obtain ⟨stamp', he, -⟩ := h2'
      exact (data_inj he).1
  · rcases hit i hi with hi | ⟨-, -, date, d, h1, h2⟩
    · obtain ⟨date, d, h1, h2⟩ := G.made i hi
      exact ⟨date, d, hmd h1, h2⟩
    · exact ⟨date, d, .inl ⟨t, c, pc', hself, h1⟩, h2⟩
  · rcases hit i hi with hi | ⟨h3, h4, -⟩
    · rcases hnum' h1 h2 with ⟨c2, pc2, h5, h6⟩ | ⟨-, h5⟩
      · exact G.out i hi u c2 pc2 h5 h6
      · exact absurd (hclt i hi) (by omega)
    · rcases hcur h1 with ⟨rfl, rfl, rfl⟩ | ⟨hu, h1⟩
      · rw [h4] at h2; cases h2
      · exact hu (G.one u t _ _ _ _ _ h1 hc h2 h3)
  · rcases hnum' h1 h3 with ⟨c3, pc3, h5, h6⟩ | ⟨rfl, rfl⟩ <;> rcases hnum' h2 h4 with ⟨c4, pc4, h7, h8⟩ | ⟨h7, h8⟩
    · exact G.one u v _ _ _ _ _ h5 h7 h6 h8
    · exact absurd (hlt h5 h6) (by omega)
    · exact absurd (hlt h7 h8) (by omega)
    · exact h7.symm
  · rcases hdl hd with hd | ⟨h1, h2⟩
    · obtain ⟨h1, h2, h3⟩ := G.dead h hd
      refine ⟨lt_of_lt_of_le h1 hn, fun i hi => ?_, fun u c1 pc1 h4 h5 => ?_⟩
      · rcases hit i hi with hi | ⟨h4, -⟩
        · exact h2 i hi
        · rintro rfl
          exact h3 t c pc hc h4
      · rcases hnum' h4 h5 with ⟨c2, pc2, h6, h7⟩ | ⟨-, h6⟩
        · exact h3 u c2 pc2 h6 h7
        · omega
    · obtain ⟨h3, h4, h5, -⟩ := hdel h h1 h2
      refine ⟨h3, h4, fun u c1 pc1 h6 h7 => ?_⟩
      rcases hcur h6 with ⟨-, rfl, rfl⟩ | ⟨-, h6⟩
      · rw [h2] at h7; cases h7
      · exact h5 u c1 pc1 h6 h7
  · rcases hdl hd with hd | ⟨h1, h2⟩
    · rcases hwr hw' with hw' | ⟨h1, -⟩
      · rcases G.gone h date d hd hw' with h1 | h1
        · exact .inl h1
        · exact hgone h date hd h1
      · exact absurd (hpn h h1) ((G.dead h hd).2.2 t c pc hc)
    · rcases hwr hw' with hw' | ⟨h3, -⟩
      · exact .inr ((hdel h h1 h2).2.2.2 date d hw')
      · exact absurd (hpn h h3) ((hdel h h1 h2).2.2.1 t c pc hc)

theorem not_makes {c : Call D} {pc : Pc D} (h2 : ∀ i, pc ≠ .append i) (h3 : ∀ i, pc ≠ .done (.ok (.item i)))
    (date : String) (d : D) (h : Int) : ¬ MakesAt c pc date d h := by
  rintro ⟨_, -, ⟨i, h, -⟩ | ⟨i, h, -⟩⟩
  · exact h2 _ h
  · exact h3 _ h

/-- A turn that leaves everything alone, deletes nothing and makes nothing. -/
theorem Gone.look {cfg : Config} {f0 : Dict String D} {s : State D} (H : Held cfg f0 s) (G : Gone cfg s) {t : Nat} {c : Call D}
    {pc pc' : Pc D} (hc : (s.threads t).cur = some (c, pc))
    (hnum : ∀ h, numOf pc' = some h → numOf pc = some h)
    (hw : ∀ date d h, Writes c pc' date d h → Writes c pc date d h)
    (hmk : ∀ date d h, ¬ MakesAt c pc date d h) (hdel : pc' ≠ .done (.ok (.flag true))) :
    Gone cfg { s with counter := s.counter, items := s.items, files := s.files,
                      threads := s.setThread t ⟨(s.threads t).todo, some (c, pc')⟩ } :=
  G.advance H hc _ _ _ le_rfl G.keys (fun h hh => .inl (hnum h hh)) (fun _ _ _ h => .inl (hw _ _ _ h))
    (fun _ _ _ h => absurd h (hmk _ _ _)) (fun _ hi => .inl hi) G.nodup (fun _ _ h => absurd h hdel) fun _ _ _ h => .inr h

theorem step_gone {cfg : Config} {f0 : Dict String D} {s : State D} (H : Held cfg f0 s) (G : Gone cfg s) (t : Nat) :
    Gone cfg (step cfg s (.thread t)) := by
  rw [step]
  cases hcur : (s.threads t).cur with
  | none =>
    simp only
    cases htodo : (s.threads t).todo with
    | nil => exact G
    | cons c cs =>
      simp only
      have hold : ∀ {u c1 pc1}, (s.setThread t ⟨cs, some (c, .start)⟩ u).cur = some (c1, pc1) →
          (u = t ∧ c1 = c ∧ pc1 = .start) ∨ (s.threads u).cur = some (c1, pc1) := by
        intro u c1 pc1 h
        by_cases hu : u = t
        · subst hu
          rw [setThread_self] at h
          simp only [Option.some.injEq, Prod.mk.injEq] at h
          exact .inl ⟨rfl, h.1.symm, h.2.symm⟩
        · rw [setThread_ne _ _ hu] at h
          exact .inr h
      have hwr : ∀ {date d h}, Wrote { s with threads := s.setThread t ⟨cs, some (c, .start)⟩, hist := s.hist ++ [.inv t c] } date d h →
          Wrote s date d h := by
        rintro date d h (⟨u, c1, pc1, h1, h2⟩ | ⟨u, stamp, i, h1, h2⟩)
        · rcases hold h1 with ⟨-, rfl, rfl⟩ | h1
          · exact absurd h2 (not_writes (by simp) (by simp) (by simp) _ _ _)
          · exact .inl ⟨u, c1, pc1, h1, h2⟩
        · simp only [List.mem_append, List.mem_singleton, reduceCtorEq, or_false] at h1
          exact .inr ⟨u, stamp, i, h1, h2⟩
      have hmd : ∀ {date d h}, Made s date d h →
          Made { s with threads := s.setThread t ⟨cs, some (c, .start)⟩, hist := s.hist ++ [.inv t c] } date d h := by
        rintro date d h (⟨u, c1, pc1, h1, h2⟩ | ⟨u, stamp, i, h1, h2⟩)
        · have hu : u ≠ t := by rintro rfl; rw [hcur] at h1; cases h1
          exact .inl ⟨u, c1, pc1, by show (s.setThread t _ u).cur = _; rw [setThread_ne _ _ hu]; exact h1, h2⟩
        · exact .inr ⟨u, stamp, i, by simp [h1], h2⟩
      have hdl : ∀ {h}, Deleted { s with threads := s.setThread t ⟨cs, some (c, .start)⟩, hist := s.hist ++ [.inv t c] } h → Deleted s h := by
        rintro h (⟨u, hu⟩ | ⟨u, hr⟩)
        · rcases hold hu with ⟨-, -, h1⟩ | h1
          · cases h1
          · exact .inl ⟨u, h1⟩
        · simp only [List.mem_append, List.mem_singleton, reduceCtorEq, or_false] at hr
          exact .inr ⟨u, hr⟩
      have hnum : ∀ {u c1 pc1 h}, (s.setThread t ⟨cs, some (c, .start)⟩ u).cur = some (c1, pc1) → numOf pc1 = some h →
          (s.threads u).cur = some (c1, pc1) := by
        intro u c1 pc1 h h1 h2
        rcases hold h1 with ⟨-, -, rfl⟩ | h1
        · cases h2
        · exact h1
      refine ⟨G.keys, fun _ _ _ _ _ h1 h2 => G.same _ _ _ _ _ (hwr h1) (hwr h2), fun i hi => ?_, G.nodup,
        fun i hi u c1 pc1 h1 h2 => G.out i hi u c1 pc1 (hnum h1 h2) h2,
        fun u v c1 pc1 c2 pc2 h h1 h2 h3 h4 => G.one u v c1 pc1 c2 pc2 h (hnum h1 h3) (hnum h2 h4) h3 h4, fun h hd => ?_,
        fun h date d hd hw => ?_⟩
      · obtain ⟨date, d, h1, h2⟩ := G.made i hi
        exact ⟨date, d, hmd h1, h2⟩
      · obtain ⟨h1, h2, h3⟩ := G.dead h (hdl hd)
        exact ⟨h1, h2, fun u c1 pc1 h4 h5 => h3 u c1 pc1 (hnum h4 h5) h5⟩
      · rcases G.gone h date d (hdl hd) (hwr hw) with ⟨v, x, h1⟩ | h1
        · exact .inl ⟨v, x, by simp [h1]⟩
        · exact .inr h1
  | some p =>
    obtain ⟨c, pc⟩ := p
    obtain ⟨hpl, hinv, hfine⟩ := H.cur t c pc hcur
    cases pc with
    | done r =>
      simp only
      have hold : ∀ {u c1 pc1}, (s.setThread t ⟨(s.threads t).todo, none⟩ u).cur = some (c1, pc1) → (s.threads u).cur = some (c1, pc1) := by
        intro u c1 pc1 h
        by_cases hu : u = t
        · subst hu
          rw [setThread_self] at h
          cases h
        · rwa [setThread_ne _ _ hu] at h
      have hwr : ∀ {date d h}, Wrote { s with threads := s.setThread t ⟨(s.threads t).todo, none⟩, hist := s.hist ++ [.ret t c r] } date d h →
          Wrote s date d h := by
        rintro date d h (⟨u, c1, pc1, h1, h2⟩ | ⟨u, stamp, i, h1, h2⟩)
        · exact .inl ⟨u, c1, pc1, hold h1, h2⟩
        · simp only [List.mem_append, List.mem_singleton] at h1
          rcases h1 with h1 | h1
          · exact .inr ⟨u, stamp, i, h1, h2⟩
          · injection h1 with e1 e2 e3
            subst e1; subst e2; subst e3
            exact .inl ⟨u, _, _, hcur, stamp, rfl, .inr (.inr ⟨i, rfl, h2⟩)⟩
      have hmd : ∀ {date d h}, Made s date d h →
          Made { s with threads := s.setThread t ⟨(s.threads t).todo, none⟩, hist := s.hist ++ [.ret t c r] } date d h := by
        rintro date d h (⟨u, c1, pc1, h1, h2⟩ | ⟨u, stamp, i, h1, h2⟩)
        · by_cases hu : u = t
          · subst hu
            rw [hcur] at h1
            simp only [Option.some.injEq, Prod.mk.injEq] at h1
            obtain ⟨rfl, rfl⟩ := h1
            obtain ⟨stamp, rfl, ⟨i, hi, -⟩ | ⟨i, hi, hh⟩⟩ := h2
            · cases hi
            · cases hi
              exact .inr ⟨u, stamp, i, by simp, hh⟩
          · exact .inl ⟨u, c1, pc1, by show (s.setThread t _ u).cur = _; rw [setThread_ne _ _ hu]; exact h1, h2⟩
        · exact .inr ⟨u, stamp, i, by simp [h1], h2⟩
      have hdl : ∀ {h}, Deleted { s with threads := s.setThread t ⟨(s.threads t).todo, none⟩, hist := s.hist ++ [.ret t c r] } h → Deleted s h := by
        rintro h (⟨u, hu⟩ | ⟨u, hr⟩)
        · exact .inl ⟨u, hold hu⟩
        · simp only [List.mem_append, List.mem_singleton] at hr
          rcases hr with hr | hr
          · exact .inr ⟨u, hr⟩
          · injection hr with e1 e2 e3
            subst e1; subst e2; subst e3
            exact .inl ⟨u, hcur⟩
      refine ⟨G.keys, fun _ _ _ _ _ h1 h2 => G.same _ _ _ _ _ (hwr h1) (hwr h2), fun i hi => ?_, G.nodup,
        fun i hi u c1 pc1 h1 h2 => G.out i hi u c1 pc1 (hold h1) h2,
        fun u v c1 pc1 c2 pc2 h h1 h2 h3 h4 => G.one u v c1 pc1 c2 pc2 h (hold h1) (hold h2) h3 h4, fun h hd => ?_,
        fun h date d hd hw => ?_⟩
      · obtain ⟨date, d, h1, h2⟩ := G.made i hi
        exact ⟨date, d, hmd h1, h2⟩
      · obtain ⟨h1, h2, h3⟩ := G.dead h (hdl hd)
        exact ⟨h1, h2, fun u c1 pc1 h4 h5 => h3 u c1 pc1 (hold h4) h5⟩
      · rcases G.gone h date d (hdl hd) (hwr hw) with ⟨v, x, h1⟩ | h1
        · exact .inl ⟨v, x, by simp [h1]⟩
        · exact .inr h1
    | start =>
      have nm : ∀ date d h, ¬ MakesAt c .start date d h := not_makes (by simp) (by simp)
      cases hpl with
      | data date stamp d =>
        simp only [Call.withData, Crud.advance]
        refine G.look H hcur ?_ ?_ nm ?_
        · intro h hh; split at hh <;> cases hh
        · intro date d h hh
          exfalso
          revert hh
          split
          · exact not_writes (by simp) (by simp) (by simp) _ _ _
          · exact not_writes (by simp) (by simp) (by simp) _ _ _
        · split <;> simp
      | update h x =>
        simp only [Crud.advance]
        cases hl : s.items.find? (fun i => i.handle == h) with
        | none =>
          exact G.look H hcur (by intro h hh; cases hh) (fun _ _ _ hh =>
            absurd hh (not_writes (by simp) (by simp) (by simp) _ _ _)) nm (by simp)
        | some i =>
          exact G.look H hcur (by intro h hh; cases hh) (fun _ _ _ hh =>
            absurd hh (not_writes (by simp) (by simp) (by simp) _ _ _)) nm (by simp)
      | items =>
        exact G.look H hcur (by intro h hh; cases hh) (fun _ _ _ hh =>
          absurd hh (not_writes (by simp) (by simp) (by simp) _ _ _)) nm (by simp)
      | delete h =>
        simp only [Crud.advance]
        cases hl : s.items.find? (fun i => i.handle == h) with
        | none =>
          exact G.look H hcur (by intro h hh; cases hh) (fun _ _ _ hh =>
            absurd hh (not_writes (by simp) (by simp) (by simp) _ _ _)) nm (by simp)
        | some i =>
          obtain ⟨hm, rfl⟩ := mem_of_lookup (show lookup h s.items = some i from hl)
          have hi : ∀ j ∈ s.items.erase i, j ∈ s.items := fun j hj => List.mem_of_mem_erase hj
          have hnd : ((s.items.erase i).map Item.handle).Nodup := ((List.erase_sublist).map _).nodup G.nodup
          simp only
          split
          · refine G.advance H hcur _ _ _ le_rfl (Dict.nodup_erase G.keys) (by intro h hh; cases hh)
              (fun _ _ _ hh => absurd hh (not_writes (by simp) (by simp) (by simp) _ _ _)) (fun _ _ _ hh => absurd hh (nm _ _ _))
              (fun j hj => .inl (hi j hj)) hnd ?_ ?_
            · intro h hh _
              cases hh
              obtain ⟨date, d, hmade, hpath⟩ := G.made i hm
              obtain ⟨_, hlt⟩ := H.items i hm
              refine ⟨hlt.1, fun j hj he => ?_, fun u c1 pc1 h1 => G.out i hm u c1 pc1 h1, fun date' d' hw => ?_⟩
              · have hj' := hi j hj
                have hij : j = i := List.inj_on_of_nodup_map G.nodup hj' hm he
                subst hij
                exact (List.Nodup.of_map _ G.nodup).not_mem_erase hj
              · rw [G.same _ _ _ _ _ hw hmade.wrote, ← hpath, Dict.get?_erase G.keys, if_pos rfl]
            · intro h date _ hg
              refine .inr ?_
              rw [Dict.get?_erase G.keys]
              split
              · rfl
              · exact hg
          · exact G.advance H hcur _ _ _ le_rfl G.keys (by intro h hh; cases hh)
              (fun _ _ _ hh => absurd hh (not_writes (by simp) (by simp) (by simp) _ _ _)) (fun _ _ _ hh => absurd hh (nm _ _ _))
              (fun j hj => .inl (hi j hj)) hnd (by intro h _ hh; cases hh) fun _ _ _ h => .inr h
      | get h =>
        exact G.look H hcur (by intro h hh; cases hh) (fun _ _ _ hh =>
          absurd hh (not_writes (by simp) (by simp) (by simp) _ _ _)) nm (by simp)
      | latest =>
        exact G.look H hcur (by intro h hh; cases hh) (fun _ _ _ hh =>
          absurd hh (not_writes (by simp) (by simp) (by simp) _ _ _)) nm (by simp)
    | number =>
      obtain ⟨date, stamp, d, rfl⟩ := hfine
      simp only [Call.withData, Crud.advance]
      refine G.advance H hcur _ _ _ (by omega) G.keys ?_ (fun _ _ _ hh => absurd hh (not_writes (by simp) (by simp) (by simp) _ _ _))
        (fun _ _ _ hh => absurd hh (not_makes (by simp) (by simp) _ _ _)) (fun _ hi => .inl hi) G.nodup (by intro h _ hh; cases hh)
        fun _ _ _ h => .inr h
      intro h hh
      simp only [numOf, Option.some.injEq] at hh
      exact .inr hh.symm
    | check h =>
      obtain ⟨hlt, date, stamp, d, rfl⟩ := hfine
      simp only [Call.withData, Crud.advance]
      refine G.look H hcur ?_ ?_ (not_makes (by simp) (by simp)) ?_
      · intro k hk
        split at hk
        · cases hk
        · exact hk
      · intro date d h hh
        exfalso
        revert hh
        split
        · exact not_writes (by simp) (by simp) (by simp) _ _ _
        · exact not_writes (by simp) (by simp) (by simp) _ _ _
      · split <;> simp
    | save h =>
      obtain ⟨date, stamp, d, rfl, hn⟩ := hfine
      simp only [Call.withData, Crud.advance]
      by_cases hpres : s.files.present = true
      · simp only [hpres, if_true]
        refine G.advance H hcur _ _ _ le_rfl (Dict.nodup_set G.keys) (fun _ hh => .inl hh) ?_
          (fun _ _ _ hh => absurd hh (not_makes (by simp) (by simp) _ _ _)) (fun _ hi => .inl hi) G.nodup (by intro h _ hh; cases hh) ?_
        · rintro date' d' h' ⟨_, -, hh | ⟨i, hh, -⟩ | ⟨i, hh, -⟩⟩
          · cases hh; exact .inr rfl
          · cases hh
          · cases hh
        · intro h' date' hd hg
          refine .inr ?_
          rw [Dict.get?_set, if_neg]
          · exact hg
          · intro he
            have := path_inj cfg he
            subst this
            exact (G.dead _ hd).2.2 t _ _ hcur rfl
      · simp only [hpres]
        exact G.look H hcur (by intro h hh; cases hh) (fun _ _ _ hh =>
          absurd hh (not_writes (by simp) (by simp) (by simp) _ _ _)) (not_makes (by simp) (by simp)) (by simp)
    | verify h =>
      obtain ⟨date, stamp, d, rfl, hn⟩ := hfine
      simp only [Call.withData, Crud.advance]
      refine G.look H hcur ?_ ?_ (not_makes (by simp) (by simp)) ?_
      · intro k hk
        split at hk
        · exact hk
        · cases hk
      · intro date' d' h' hh
        split at hh
        · obtain ⟨stamp', he, hh | ⟨i, hh, hi⟩ | ⟨i, hh, -⟩⟩ := hh
          · cases hh
          · cases hh
            exact ⟨stamp', he, .inl (by rw [← hi])⟩
          · cases hh
        · exact absurd hh (not_writes (by simp) (by simp) (by simp) _ _ _)
      · split <;> simp
    | append i =>
      obtain ⟨date, stamp, d, rfl, hn⟩ := hfine
      simp only [Call.withData, Crud.advance]
      refine G.advance H hcur _ _ _ le_rfl G.keys (by intro h hh; cases hh) ?_ ?_ ?_ ?_ (by intro h hh; cases hh) fun _ _ _ h => .inr h
      · rintro date' d' h' ⟨stamp', he, hh | ⟨j, hh, -⟩ | ⟨j, hh, hj⟩⟩
        · cases hh
        · cases hh
        · cases hh
          exact .inl ⟨stamp', he, .inr (.inl ⟨i, rfl, hj⟩)⟩
      · rintro date' d' h' ⟨stamp', he, ⟨j, hh, hj⟩ | ⟨j, hh, -⟩⟩
        · cases hh
          exact ⟨stamp', he, .inr ⟨i, rfl, hj⟩⟩
        · cases hh
      · intro j hj
        rcases List.mem_append.mp hj with hj | hj
        · exact .inl hj
        · rw [List.mem_singleton.mp hj]
          exact .inr ⟨rfl, rfl, date, d, ⟨stamp, rfl, .inr ⟨i, rfl, rfl⟩⟩, hn.2.1⟩
      · rw [List.map_append, List.map_singleton, List.nodup_append]
        refine ⟨G.nodup, by simp, ?_⟩
        intro a ha b hb
        obtain ⟨j, hj, rfl⟩ := List.mem_map.1 ha
        rw [List.mem_singleton.1 hb]
        intro he
        exact G.out j hj t _ _ hcur (by rw [he]; rfl)
    | write p x =>
      obtain ⟨h, date, rfl, hn⟩ := hfine
      simp only [Crud.advance]
      refine G.advance H hcur _ _ _ le_rfl (Dict.nodup_set G.keys) (by intro h hh; cases hh)
        (fun _ _ _ hh => absurd hh (not_writes (by simp) (by simp) (by simp) _ _ _))
        (fun _ _ _ hh => absurd hh (not_makes (by simp) (by simp) _ _ _)) (fun _ hi => .inl hi) G.nodup (by intro h _ hh; cases hh) ?_
      intro h' date' _ hg
      by_cases he : p = cfg.path date' h'
      · have hh : h' = h := path_inj cfg (he.symm.trans hn.2.1)
        subst hh
        exact .inl ⟨t, x, hinv⟩
      · exact .inr (by rw [Dict.get?_set, if_neg he]; exact hg)

theorem gone_start (cfg : Config) (files : Files D) (calls : Nat → List (Call D)) (h : files.content.keys.Nodup) :
    Gone cfg (start files calls) where
  keys := h
  same date d date' d' h h1 := by
    rcases h1 with ⟨t, c, pc, hc, -⟩ | ⟨t, stamp, i, hi, -⟩
    · cases hc
    · cases hi
  made i hi := by cases hi
  nodup := List.nodup_nil
  out i hi := by cases hi
  one t u c pc c' pc' h hc := by cases hc
  dead h hd := by
    rcases hd with ⟨t, hc⟩ | ⟨t, hi⟩
    · cases hc
    · cases hi
  gone h date d hd := by
    rcases hd with ⟨t, hc⟩ | ⟨t, hi⟩
    · cases hc
    · cases hi

theorem run_gone {cfg : Config} {f0 : Dict String D} {s : State D} (H : Held cfg f0 s) (G : Gone cfg s) (turns : List Nat) :
    Gone cfg (run cfg s (turns.map .thread)) := by
  induction turns generalizing s with
  | nil => exact G
  | cons t turns ih => exact ih (step_held H t) (step_gone H G t)

/-! ## C162 -/

/-- **C162, partial**. While nobody else changes the directory, whatever the threads do at the same time: files that were there are never
touched, and at every moment the file of an item that was made with some data holds that data, or what an `update` of the item was called
with, unless `delete` was called for it. Missing: that a deleted file is gone, see `C162_false`. -/
theorem C162_partial (cfg : Config) (files : Files D) (calls : Nat → List (Call D)) (hc : ∀ t, ∀ c ∈ calls t, Plain c) (turns : List Nat) :
    let s := run cfg (start files calls) (turns.map .thread)
    (∀ p x, files.content.get? p = some x → s.files.content.get? p = some x) ∧
    ∀ t date stamp d i, .ret t (.withData date stamp d) (.ok (.item i)) ∈ s.hist → (∀ v, .inv v (.delete i.handle) ∉ s.hist) →
      ∃ x, s.files.content.get? i.path = some x ∧ (x = d ∨ ∃ v, .inv v (.update i.handle x) ∈ s.hist) := by
  intro s
  have H : Held cfg files.content s := run_held (held_start cfg files calls hc) turns
  refine ⟨H.init, fun t date stamp d i hr hd => ?_⟩
  obtain ⟨date', stamp', d', he, hn⟩ := H.rets t _ i hr
  obtain ⟨rfl, rfl, rfl⟩ := data_inj he
  rcases H.held date d i.handle (.inr ⟨t, stamp, i, hr, rfl⟩) with ⟨v, hv⟩ | h
  · exact absurd hv (hd v)
  · rw [hn.2.1]
    exact h

/-- **C162, partial**. When `delete` has said that it deleted the file of an item, then the file is gone and stays so, if nobody calls `update`
for that item. (Missing: with an `update` before or at the same time, see `C162_false`.) -/
theorem C162_gone_partial (cfg : Config) (files : Files D) (hk : files.content.keys.Nodup) (calls : Nat → List (Call D))
    (hc : ∀ t, ∀ c ∈ calls t, Plain c) (turns : List Nat) :
    let s := run cfg (start files calls) (turns.map .thread)
    ∀ t u date stamp d i, .ret t (.withData date stamp d) (.ok (.item i)) ∈ s.hist →
      .ret u (.delete i.handle) (.ok (.flag true)) ∈ s.hist → (∀ v x, .inv v (.update i.handle x) ∉ s.hist) →
      s.files.content.get? i.path = none := by
  intro s t u date stamp d i hr hd hu
  have H0 := held_start cfg files calls hc
  have H : Held cfg files.content s := run_held H0 turns
  have G : Gone cfg s := run_gone H0 (gone_start cfg files calls hk) turns
  obtain ⟨date', stamp', d', he, hn⟩ := H.rets t _ i hr
  obtain ⟨rfl, rfl, rfl⟩ := data_inj he
  rcases G.gone i.handle date d (.inr ⟨u, hd⟩) (.inr ⟨t, stamp, i, hr, rfl⟩) with ⟨v, x, h⟩ | h
  · exact absurd h (hu v x)
  · rw [hn.2.1]
    exact h

/-- One thread deletes what the other one has made. -/
example : (run demoConfig (start ⟨true, [("d/pA_1.bin", 9)]⟩ fun t => match t with
    | 0 => [.withData "A" 7 5, .delete 2]
    | 1 => [.withData "A" 8 6, .delete 0]
    | _ => [])
    (([0, 1, 0, 1, 0, 1, 0, 1, 0, 1, 0, 1, 0, 1, 0, 1, 0, 1, 1, 1, 1, 1, 1, 1, 1, 1, 0, 0, 0]).map .thread)).files.content =
    [("d/pA_1.bin", 9)] := by
  decide +kernel

/-- **C162** for deleted files: when `delete` has said that it deleted a file and no call is under way, then the file is gone. -/
def C162_claim : Prop :=
  ∀ (cfg : Config) (files : Files Nat) (calls : Nat → List (Call Nat)), (∀ t, ∀ c ∈ calls t, Plain c) → ∀ turns : List Nat,
    let s := run cfg (start files calls) (turns.map .thread)
    (∀ t, (s.threads t).cur = none) → ∀ t u date stamp d i, .ret t (.withData date stamp d) (.ok (.item i)) ∈ s.hist →
      .ret u (.delete i.handle) (.ok (.flag true)) ∈ s.hist → s.files.content.get? i.path = none

/-- one thread creates a file and deletes it, another one updates it -/
def resurrecting (t : Nat) : List (Call Nat) := match t with
  | 0 => [.withData "A" 7 5, .delete 0]
  | 1 => [.update 0 6]
  | _ => []

/-- **C162** fails: an `update` that has looked up the item before the `delete` writes the file again, for ever. -/
theorem C162_false : ¬ C162_claim := by
  intro h
  have := h demoConfig ⟨true, []⟩ resurrecting (by
    intro t c hc
    match t, hc with
    | 0, hc =>
      rcases List.mem_cons.mp hc with rfl | hc
      · exact .data ..
      · rw [List.mem_singleton.mp hc]; exact .delete _
    | 1, hc => rw [List.mem_singleton.mp hc]; exact .update _ _
    | t + 2, hc => cases hc) [0, 0, 0, 0, 0, 0, 0, 0, 1, 1, 0, 0, 0, 1, 1] (by
    intro t
    match t with
    | 0 => rfl
    | 1 => rfl
    | t + 2 => rfl) 0 0 "A" 7 5 ⟨0, 7, demoConfig.path "A" 0⟩
    (List.mem_of_getElem? (i := 1) rfl) (List.mem_of_getElem? (i := 4) rfl)
  exact absurd this (by decide +kernel)

/-- Two threads create a file each next to a third file that is there already; one of the two is updated while the other one is made. -/
example : (run demoConfig (start ⟨true, [("d/pA_1.bin", 9)]⟩ fun t => match t with
    | 0 => [.withData "A" 7 5, .update 0 4]
    | 1 => [.withData "A" 8 6, .withData "A" 8 6]
    | _ => [])
    (([0, 1, 0, 1, 0, 1, 0, 1, 0, 1, 0, 0, 1, 0, 0, 1, 0, 1, 0, 1, 1, 1, 0, 1, 1, 1, 0]).map .thread)).files.content =
    [("d/pA_1.bin", 9), ("d/pA_0.bin", 4), ("d/pA_2.bin", 6)] := by
  decide +kernel

end Crud

end Verif
