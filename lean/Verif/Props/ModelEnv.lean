import Verif.Model.ModelEnv
import Verif.Lemmas.Proxy
import Verif.Lemmas.List

/-!
# Model environment (C67, C86)

For all numbers of environments and all histories of calls.
-/

namespace Verif

namespace MEnv

/-! ## What a step does -/

section

variable {ω ρ : Type}

/-- whether a row's episode ends -/
def ends (t : Bool) (l : Line ω ρ) : Bool := l.done || t

/-- the agents of the environments after the loop -/
def assign (t : Bool) : Nat → List (Line ω ρ) → List Nat
  | _, [] => []
  | next, l :: ls => if ends t l then next :: assign t (next + 1) ls else l.agent :: assign t next ls

def count (t : Bool) (ls : List (Line ω ρ)) : Nat := (ls.filter (ends t)).length

/-- the entries the loop makes -/
def pairs (t : Bool) : Nat → List (Line ω ρ) → List (Nat × Obs ω ρ)
  | _, [] => []
  | next, l :: ls =>
    if ends t l then
      (l.agent, ⟨if l.done then .terminal else .interrupted, l.next, some l.reward⟩) :: (next, ⟨.initial, l.init, none⟩) ::
        pairs t (next + 1) ls
    else pairs t next ls

/-- the entries of the others -/
def runs (t : Bool) : List (Line ω ρ) → List (Nat × Obs ω ρ)
  | [] => []
  | l :: ls => if ends t l then runs t ls else (l.agent, ⟨.running, l.next, some l.reward⟩) :: runs t ls

theorem loop_eq (t : Bool) (ls : List (Line ω ρ)) (a : Acc ω ρ) :
    loop t a ls = ⟨a.results.update (pairs t a.nextAgent ls), a.ids ++ assign t a.nextAgent ls,
      a.newAgents ++ List.range' a.nextAgent (count t ls), a.nextAgent + count t ls⟩ := by
  induction ls generalizing a with
  | nil => simp [loop, pairs, assign, count, Dict.update]
  | cons l ls ih =>
    by_cases h : ends t l
    · have h' : (l.done || t) = true := h
      simp only [loop, h', if_true, ih, pairs, assign, h, count, List.filter_cons_of_pos, List.length_cons, Acc.mk.injEq]
      refine ⟨rfl, by simp, ?_, by omega⟩
      rw [List.append_assoc, List.range'_succ]; rfl
    · have h' : (l.done || t) = false := by simpa [ends] using h
      simp only [loop, h', ih, pairs, assign, if_neg h, count]
      rw [List.filter_cons_of_neg (by simpa using h)]
      simp

theorem running_eq (t : Bool) (ls : List (Line ω ρ)) (next : Nat) (N : List Nat) (h1 : ∀ l ∈ ls, l.agent ∉ N)
    (h2 : ∀ k ∈ List.range' next (count t ls), k ∈ N) : running N (assign t next ls) ls = runs t ls := by
  induction ls generalizing next with
  | nil => rfl
  | cons l ls ih =>
    by_cases h : ends t l
    · have hc : count t (l :: ls) = count t ls + 1 := by simp [count, List.filter_cons_of_pos, h]
      rw [hc, List.range'_succ] at h2
      simp only [assign, h, if_true, running, runs]
      rw [if_pos (h2 next List.mem_cons_self)]
      exact ih (next + 1) (fun l hl => h1 l (List.mem_cons_of_mem _ hl)) (fun k hk => h2 k (List.mem_cons_of_mem _ hk))
    · have hc : count t (l :: ls) = count t ls := by simp [count, List.filter_cons_of_neg, h]
      rw [hc] at h2
      simp only [assign, if_neg h, running, runs]
      rw [if_neg (h1 l List.mem_cons_self)]
      rw [ih next (fun l hl => h1 l (List.mem_cons_of_mem _ hl)) h2]

theorem length_assign (t : Bool) (next : Nat) (ls : List (Line ω ρ)) : (assign t next ls).length = ls.length := by
  induction ls generalizing next with
  | nil => rfl
  | cons l ls ih => simp only [assign]; split <;> simp [ih]

theorem mem_assign (t : Bool) (next : Nat) (ls : List (Line ω ρ)) (k : Nat) (h : k ∈ assign t next ls) :
    (∃ l ∈ ls, l.agent = k ∧ ends t l = false) ∨ (next ≤ k ∧ k < next + count t ls) := by
  induction ls generalizing next with
  | nil => cases h
  | cons l ls ih =>
    by_cases he : ends t l
    · have hc : count t (l :: ls) = count t ls + 1 := by simp [count, List.filter_cons_of_pos, he]
      simp only [assign, he, if_true, List.mem_cons] at h
      rcases h with rfl | h
      · right; omega
      · rcases ih (next + 1) h with ⟨l', h1, h2⟩ | h
        · exact Or.inl ⟨l', List.mem_cons_of_mem _ h1, h2⟩
        · right; omega
    · have hc : count t (l :: ls) = count t ls := by simp [count, List.filter_cons_of_neg, he]
      simp only [assign, if_neg he, List.mem_cons] at h
      rcases h with rfl | h
      · exact Or.inl ⟨l, List.mem_cons_self, rfl, by simpa using he⟩
      · rcases ih next h with ⟨l', h1, h2⟩ | h
        · exact Or.inl ⟨l', List.mem_cons_of_mem _ h1, h2⟩
        · right; omega

theorem nodup_assign (t : Bool) (next : Nat) (ls : List (Line ω ρ)) (h : (ls.map Line.agent).Nodup)
    (hlt : ∀ l ∈ ls, l.agent < next) : (assign t next ls).Nodup := by
  induction ls generalizing next with
  | nil => exact List.nodup_nil
  | cons l ls ih =>
    rw [List.map_cons, List.nodup_cons] at h
    have hlt' : ∀ l ∈ ls, l.agent < next := fun l hl => hlt l (List.mem_cons_of_mem _ hl)
    by_cases he : ends t l
    · simp only [assign, he, if_true, List.nodup_cons]
      refine ⟨fun hm => ?_, ih (next + 1) h.2 fun l hl => Nat.lt_succ_of_lt (hlt' l hl)⟩
      rcases mem_assign t (next + 1) ls next hm with ⟨l', h1, h2, -⟩ | h3
      · have := hlt' l' h1; omega
      · omega
    · simp only [assign, if_neg he, List.nodup_cons]
      refine ⟨fun hm => ?_, ih next h.2 hlt'⟩
      rcases mem_assign t next ls l.agent hm with ⟨l', h1, h2, -⟩ | h3
      · exact h.1 (List.mem_map.mpr ⟨l', h1, h2⟩)
      · have := hlt l List.mem_cons_self; omega

theorem keys_perm (t : Bool) (next : Nat) (ls : List (Line ω ρ)) :
    (Dict.keys (pairs t next ls ++ runs t ls)).Perm (ls.map Line.agent ++ List.range' next (count t ls)) := by
  induction ls generalizing next with
  | nil => exact List.Perm.refl _
  | cons l ls ih =>
    by_cases he : ends t l
    · have hc : count t (l :: ls) = count t ls + 1 := by simp [count, List.filter_cons_of_pos, he]
      simp only [pairs, runs, he, if_true, List.cons_append, Dict.keys_cons, List.map_cons, hc, List.range'_succ]
      refine List.Perm.cons _ ?_
      exact ((ih (next + 1)).cons next).trans List.perm_middle.symm
    · have hc : count t (l :: ls) = count t ls := by simp [count, List.filter_cons_of_neg, he]
      simp only [pairs, runs, if_neg he, hc, List.map_cons, List.cons_append, Dict.keys_append, Dict.keys_cons]
      refine List.perm_middle.trans (List.Perm.cons _ ?_)
      rw [← Dict.keys_append]
      exact ih next

theorem ofPairs_of_nodup {κ : Type} {α : Type} [DecidableEq κ] (l : List (κ × α)) (h : (Dict.keys l).Nodup) :
    Dict.ofPairs l = l := by
  suffices h' : ∀ (l d : List (κ × α)), (Dict.keys (d ++ l)).Nodup → Dict.update d l = d ++ l by
    exact h' l [] (by simpa using h)
  intro l
  induction l with
  | nil => intro d _; simp [Dict.update]
  | cons p l ih =>
    intro d hd
    have hp : p.1 ∉ Dict.keys d := by
      rw [Dict.keys_append, Dict.keys_cons] at hd
      intro hm
      exact (List.nodup_append.mp hd).2.2 _ hm _ List.mem_cons_self rfl
    have := ih (d ++ [p]) (by simpa using hd)
    simp only [Dict.update, List.foldl_cons] at this ⊢
    rw [Dict.set_of_not_mem hp, this, List.append_assoc]
    rfl

/-- A row ends up in the results as it should. -/
theorem row_spec (t : Bool) (next : Nat) (ls : List (Line ω ρ)) (i : Nat) (l : Line ω ρ) (h : ls[i]? = some l) :
    (l.agent, (⟨if l.done then .terminal else if t then .interrupted else .running, l.next, some l.reward⟩ : Obs ω ρ)) ∈
        pairs t next ls ++ runs t ls ∧
      (ends t l = true → ∃ k, (assign t next ls)[i]? = some k ∧ next ≤ k ∧
          (k, (⟨.initial, l.init, none⟩ : Obs ω ρ)) ∈ pairs t next ls ++ runs t ls) ∧
      (ends t l = false → (assign t next ls)[i]? = some l.agent) := by
  induction ls generalizing next i with
  | nil => cases h
  | cons l' ls ih =>
    cases i with
    | zero =>
      simp only [List.getElem?_cons_zero, Option.some.injEq] at h
      subst h
      by_cases he : ends t l'
      · simp only [pairs, runs, assign, he, if_true]
        refine ⟨?_, fun _ => ⟨next, by simp, Nat.le_refl _, by simp⟩, fun h => by cases h⟩
        have : (if l'.done = true then EpState.terminal else if t = true then .interrupted else .running) =
            if l'.done = true then .terminal else .interrupted := by
          simp only [ends, Bool.or_eq_true] at he
          rcases he with he | he <;> simp [he]
        rw [this]; simp
      · simp only [pairs, runs, assign, if_neg he]
        have he' : l'.done = false ∧ t = false := by simpa [ends] using he
        refine ⟨by simp [he'.1, he'.2], fun h => absurd h he, fun _ => by simp⟩
    | succ i =>
      simp only [List.getElem?_cons_succ] at h
      by_cases he : ends t l'
      · obtain ⟨h1, h2, h3⟩ := ih (next + 1) i h
        simp only [pairs, runs, assign, he, if_true, List.getElem?_cons_succ]
        have lift : ∀ x, x ∈ pairs t (next + 1) ls ++ runs t ls →
            ∀ a b, x ∈ (a :: b :: pairs t (next + 1) ls) ++ runs t ls := by
          intro x hx a b; simp only [List.cons_append, List.mem_cons]; exact Or.inr (Or.inr hx)
        refine ⟨lift _ h1 _ _, fun hl => ?_, h3⟩
        obtain ⟨k, a, b, c⟩ := h2 hl
        exact ⟨k, a, by omega, lift _ c _ _⟩
      · obtain ⟨h1, h2, h3⟩ := ih next i h
        simp only [pairs, runs, assign, if_neg he, List.getElem?_cons_succ]
        have lift : ∀ x, x ∈ pairs t next ls ++ runs t ls →
            x ∈ pairs t next ls ++ (l'.agent, (⟨.running, l'.next, some l'.reward⟩ : Obs ω ρ)) :: runs t ls := by
          intro x hx; simp only [List.mem_append, List.mem_cons] at hx ⊢; tauto
        refine ⟨lift _ h1, fun hl => ?_, h3⟩
        obtain ⟨k, a, b, c⟩ := h2 hl
        exact ⟨k, a, b, lift _ c⟩

/-- Every entry is that of a row or that of a new agent. -/
theorem entry_spec (t : Bool) (next : Nat) (ls : List (Line ω ρ)) (k : Nat) (o : Obs ω ρ)
    (h : (k, o) ∈ pairs t next ls ++ runs t ls) :
    (∃ l ∈ ls, l.agent = k ∧ o = ⟨if l.done then .terminal else if t then .interrupted else .running, l.next, some l.reward⟩) ∨
      (next ≤ k ∧ k ∈ assign t next ls ∧ o.state = .initial) := by
  induction ls generalizing next with
  | nil => cases h
  | cons l ls ih =>
    by_cases he : ends t l
    · simp only [pairs, runs, he, if_true, List.cons_append, List.mem_cons] at h
      rcases h with h | h | h
      · left
        refine ⟨l, List.mem_cons_self, ?_⟩
        simp only [Prod.mk.injEq] at h
        refine ⟨h.1.symm, ?_⟩
        rw [h.2]
        simp only [ends, Bool.or_eq_true] at he
        rcases he with he | he <;> simp [he]
      · right
        simp only [Prod.mk.injEq] at h
        simp [assign, he, h.1, h.2]
      · rcases ih (next + 1) h with ⟨l', h1, h2⟩ | ⟨h1, h2, h3⟩
        · exact Or.inl ⟨l', List.mem_cons_of_mem _ h1, h2⟩
        · exact Or.inr ⟨by omega, by simp [assign, he, h2], h3⟩
    · have he' : l.done = false ∧ t = false := by simpa [ends] using he
      simp only [pairs, runs, if_neg he, List.mem_append, List.mem_cons] at h
      have h : (k, o) = (l.agent, ⟨.running, l.next, some l.reward⟩) ∨ (k, o) ∈ pairs t next ls ++ runs t ls := by
        simp only [List.mem_append]; tauto
      rcases h with h | h
      · simp only [Prod.mk.injEq] at h
        exact Or.inl ⟨l, List.mem_cons_self, h.1.symm, by simp [h.2, he'.1, he'.2]⟩
      · rcases ih next h with ⟨l', h1, h2⟩ | ⟨h1, h2, h3⟩
        · exact Or.inl ⟨l', List.mem_cons_of_mem _ h1, h2⟩
        · exact Or.inr ⟨h1, by simp [assign, if_neg he, h2], h3⟩

theorem length_sampleRows (w : World ω α ρ) (i : Nat) (os : List ω) (as : List α) (h : os.length = as.length) :
    (sampleRows w i os as).length = os.length := by
  induction os generalizing i as with
  | nil => cases as <;> rfl
  | cons o os ih =>
    cases as with
    | nil => simp at h
    | cons a as => simp [sampleRows, ih (i + 1) as (by simpa using h)]

theorem getElem?_sampleRows (w : World ω α ρ) (n : Nat) (os : List ω) (as : List α) (i : Nat) (o : ω) (a : α)
    (ho : os[i]? = some o) (ha : as[i]? = some a) :
    (sampleRows w n os as)[i]? =
      some ((w.sample (n + i) o a).1, (w.sample (n + i) o a).2, w.done (n + i) (w.sample (n + i) o a).1) := by
  induction os generalizing n as i with
  | nil => cases ho
  | cons o' os ih =>
    cases as with
    | nil => cases ha
    | cons a' as =>
      cases i with
      | zero =>
        simp only [List.getElem?_cons_zero, Option.some.injEq] at ho ha
        subst ho; subst ha; rfl
      | succ i =>
        simp only [List.getElem?_cons_succ] at ho ha
        simp only [sampleRows, List.getElem?_cons_succ]
        rw [ih (n + 1) as i ho ha, show n + 1 + i = n + (i + 1) by omega]

theorem agents_lines (ids : List Nat) (rows : List (ω × ρ × Bool)) (init : List ω) (h1 : rows.length = ids.length)
    (h2 : init.length = ids.length) : (lines ids rows init).map Line.agent = ids := by
  induction ids generalizing rows init with
  | nil => rfl
  | cons id ids ih =>
    cases rows with
    | nil => simp at h1
    | cons r rows =>
      cases init with
      | nil => simp at h2
      | cons i init =>
        obtain ⟨n, rw', d⟩ := r
        simp only [lines, List.map_cons, ih rows init (by simpa using h1) (by simpa using h2)]

theorem getElem?_lines (ids : List Nat) (rows : List (ω × ρ × Bool)) (init : List ω) (i id : Nat) (r : ω × ρ × Bool) (o : ω)
    (h1 : ids[i]? = some id) (h2 : rows[i]? = some r) (h3 : init[i]? = some o) :
    (lines ids rows init)[i]? = some ⟨id, r.1, r.2.1, r.2.2, o⟩ := by
  induction ids generalizing rows init i with
  | nil => cases h1
  | cons id' ids ih =>
    cases rows with
    | nil => cases h2
    | cons r' rows =>
      cases init with
      | nil => cases h3
      | cons o' init =>
        obtain ⟨n, rw', d⟩ := r'
        cases i with
        | zero =>
          simp only [List.getElem?_cons_zero, Option.some.injEq] at h1 h2 h3
          subst h1; subst h2; subst h3; rfl
        | succ i =>
          simp only [List.getElem?_cons_succ] at h1 h2 h3
          simp only [lines, List.getElem?_cons_succ]
          exact ih rows init i h1 h2 h3

theorem collect_ok (actions : Dict Nat α) (ids : List Nat) (as : List α) (h : collect actions ids = .ok as) :
    as.length = ids.length ∧ ∀ (i id : Nat), ids[i]? = some id → ∃ a, as[i]? = some a ∧ Dict.get? actions id = some a := by
  induction ids generalizing as with
  | nil => simp only [collect, Except.ok.injEq] at h; subst h; simp
  | cons id ids ih =>
    simp only [collect] at h
    cases hg : Dict.get? actions id with
    | none => simp [hg] at h
    | some a =>
      cases hc : collect actions ids with
      | error e => simp [hg, hc] at h
      | ok as' =>
        simp only [hg, hc, Except.ok.injEq] at h
        subst h
        obtain ⟨h1, h2⟩ := ih as' hc
        refine ⟨by simp [h1], fun i id' hi => ?_⟩
        cases i with
        | zero =>
          simp only [List.getElem?_cons_zero, Option.some.injEq] at hi
          subst hi; exact ⟨a, by simp, hg⟩
        | succ i =>
          obtain ⟨a', h3, h4⟩ := h2 i id' (by simpa using hi)
          exact ⟨a', by simpa using h3, h4⟩

theorem collect_of (actions : Dict Nat α) (ids : List Nat) (h : ∀ id ∈ ids, id ∈ Dict.keys actions) :
    ∃ as, collect actions ids = .ok as := by
  induction ids with
  | nil => exact ⟨[], rfl⟩
  | cons id ids ih =>
    obtain ⟨as, h1⟩ := ih fun id' h' => h id' (List.mem_cons_of_mem _ h')
    obtain ⟨a, h2⟩ := Dict.get?_isSome_of_mem (h id List.mem_cons_self)
    exact ⟨a :: as, by simp [collect, h1, h2]⟩

/-- What always holds of an environment. -/
structure Inv (e : Env ω) : Prop where
  nodup : e.ids.Nodup
  lt : ∀ k ∈ e.ids, k < e.nextAgent
  length : e.ids.length = e.numEnvs
  sizes : ∀ c, e.current = some c → ∃ i, e.init = some i ∧ i.length = c.length

/-- What a step does, seen from outside. -/
structure StepSpec (e e' : Env ω) (w : World ω α ρ) (actions : Dict Nat α) (r : Dict Nat (Obs ω ρ)) : Prop where
  inv : Inv e'
  num : e'.numEnvs = e.numEnvs
  mono : e.nextAgent ≤ e'.nextAgent
  nodup : (Dict.keys r).Nodup
  live : (Dict.keys (r.filter fun p => p.2.state = .initial ∨ p.2.state = .running)).Perm e'.ids
  ready : ∃ c, e.current = some c ∧ c.length = e.numEnvs
  ready' : ∃ c, e'.current = some c ∧ c.length = e.numEnvs
  init : e'.init = e.init
  /-- the row of an agent -/
  row : ∀ i id, e.ids[i]? = some id → ∃ o a ini, e.current.bind (·[i]?) = some o ∧ Dict.get? actions id = some a ∧
    e.init.bind (·[i]?) = some ini ∧ e'.current.bind (·[i]?) = some (w.sample i o a).1 ∧
    let done := w.done i (w.sample i o a).1
    let late := decide (e.lenRollout ≤ e.timestep + 1)
    Dict.get? r id = some ⟨if done then .terminal else if late then .interrupted else .running, (w.sample i o a).1,
      some (w.sample i o a).2⟩ ∧
    ((done || late) = true → id ∉ e'.ids ∧ ∃ k, e'.ids[i]? = some k ∧ e.nextAgent ≤ k ∧ Dict.get? r k = some ⟨.initial, ini, none⟩) ∧
    ((done || late) = false → e'.ids[i]? = some id)
  /-- nothing else -/
  only : ∀ k o, Dict.get? r k = some o → k ∈ e.ids ∨ (e.nextAgent ≤ k ∧ k ∈ e'.ids ∧ o.state = .initial)
  new : ∀ k ∈ e'.ids, k ∈ e.ids ∨ e.nextAgent ≤ k

theorem live_perm (t : Bool) (next : Nat) (ls : List (Line ω ρ)) :
    (Dict.keys ((pairs t next ls ++ runs t ls).filter fun p => p.2.state = .initial ∨ p.2.state = .running)).Perm
      (assign t next ls) := by
  induction ls generalizing next with
  | nil => exact List.Perm.refl _
  | cons l ls ih =>
    by_cases he : ends t l
    · simp only [pairs, runs, assign, he, if_true, List.cons_append]
      rw [List.filter_cons_of_neg (by cases l.done <;> simp), List.filter_cons_of_pos (by simp)]
      exact (ih (next + 1)).cons next
    · simp only [pairs, runs, assign, if_neg he]
      have h := ih next
      rw [List.filter_append, Dict.keys_append] at h ⊢
      rw [List.filter_cons_of_pos (by simp), Dict.keys_cons]
      exact List.perm_middle.trans (h.cons _)

theorem step_spec (e e' : Env ω) (h : Inv e) (w : World ω α ρ) (actions : Dict Nat α) (r : Dict Nat (Obs ω ρ))
    (hs : e.dictStep w actions = (e', .ok r)) : StepSpec e e' w actions r := by
  unfold Env.dictStep at hs
  cases hc : collect actions e.ids with
  | error err => simp [hc] at hs
  | ok as =>
    obtain ⟨hl, has⟩ := collect_ok actions e.ids as hc
    simp only [hc] at hs
    split at hs
    · simp at hs
    · cases hcur : e.current with
      | none => simp [hcur] at hs
      | some cur =>
        obtain ⟨init, hini, hil⟩ := h.sizes cur hcur
        simp only [hcur, hini] at hs
        split at hs
        · next hcl =>
          have hcn : cur.length = e.ids.length := hcl.trans hl
          simp only [Prod.mk.injEq, Except.ok.injEq] at hs
          obtain ⟨rfl, rfl⟩ := hs
          generalize ht : decide (e.lenRollout ≤ e.timestep + 1) = t
          have hrl : (sampleRows w 0 cur as).length = e.ids.length := (length_sampleRows w 0 cur as hcl).trans hcn
          generalize hrows : sampleRows w 0 cur as = rows at hrl
          have hag : (lines e.ids rows init).map Line.agent = e.ids := agents_lines e.ids rows init hrl (hil.trans hcn)
          generalize hls : lines e.ids rows init = ls at hag
          have hlt : ∀ l ∈ ls, l.agent < e.nextAgent := fun l hl => h.lt _ (hag ▸ List.mem_map.mpr ⟨l, hl, rfl⟩)
          have hnd : (Dict.keys (pairs t e.nextAgent ls ++ runs t ls)).Nodup := by
            rw [(keys_perm t e.nextAgent ls).nodup_iff, hag, List.nodup_append]
            refine ⟨h.nodup, List.nodup_range', fun a ha b hb => ?_⟩
            have := h.lt a ha
            have := (List.mem_range'_1.mp hb).1
            omega
          have hrun : running (List.range' e.nextAgent (count t ls)) (assign t e.nextAgent ls) ls = runs t ls :=
            running_eq t ls e.nextAgent _ (fun l hl hm => by
              have := hlt l hl
              have := (List.mem_range'_1.mp hm).1
              omega) fun _ h => h
          have hres : Dict.update (Dict.update [] (pairs t e.nextAgent ls)) (runs t ls) = pairs t e.nextAgent ls ++ runs t ls := by
            have := ofPairs_of_nodup _ hnd
            simpa [Dict.ofPairs, Dict.update, List.foldl_append] using this
          have hlen : ls.length = e.ids.length := by rw [← hag, List.length_map]
          simp only [loop_eq, List.nil_append, hrun, hres]
          refine ⟨⟨nodup_assign t _ ls (hag.symm ▸ h.nodup) hlt, fun k hk => ?_, ?_, ?_⟩, rfl, by simp, hnd,
            live_perm t e.nextAgent ls, ⟨cur, hcur, by rw [hcn, h.length]⟩,
            ⟨_, rfl, by rw [List.length_map, hrl, h.length]⟩, hini.symm ▸ rfl, ?_, ?_, ?_⟩
          · rcases mem_assign t e.nextAgent ls k hk with ⟨l, h1, h2, -⟩ | h3
            · have := hlt l h1; simp only; omega
            · exact h3.2
          · simp only [length_assign, hlen]; exact h.length
          · intro c hc'
            simp only [Option.some.injEq] at hc'
            exact ⟨init, rfl, by rw [← hc', List.length_map, hrl, hil, hcn]⟩
          · intro i id hid
            have hi : i < e.ids.length := (List.getElem?_eq_some_iff.mp hid).1
            obtain ⟨a, ha, hga⟩ := has i id hid
            have ho : cur[i]? = some cur[i] := List.getElem?_eq_getElem _
            have hin : init[i]? = some init[i] := List.getElem?_eq_getElem _
            have hr := getElem?_sampleRows w 0 cur as i _ a ho ha
            rw [Nat.zero_add, hrows] at hr
            have hline := getElem?_lines e.ids rows init i id _ _ hid hr hin
            rw [hls] at hline
            obtain ⟨g1, g2, g3⟩ := row_spec t e.nextAgent ls i _ hline
            refine ⟨cur[i], a, init[i], by rw [hcur]; exact ho, hga, by rw [hini]; exact hin, by simp [hr], ?_⟩
            simp only [ht]
            refine ⟨?_, ?_, ?_⟩
            · exact Dict.get?_of_mem hnd g1
            · intro hd
              refine ⟨fun hm => ?_, ?_⟩
              · rcases mem_assign t e.nextAgent ls id hm with ⟨l', h1, h2, h3⟩ | h3
                · obtain ⟨j, hj⟩ := List.mem_iff_getElem?.mp h1
                  have hij : e.ids[j]? = some id := by rw [← hag, List.getElem?_map, hj]; simp [h2]
                  have hji : j = i := by
                    have hjl : j < e.ids.length := (List.getElem?_eq_some_iff.mp hij).1
                    exact (List.getElem?_inj hjl h.nodup).mp (hij.trans hid.symm)
                  subst hji
                  rw [hline] at hj
                  simp only [Option.some.injEq] at hj
                  rw [← hj] at h3
                  simp only [ends] at h3
                  rw [h3] at hd
                  cases hd
                · have := h.lt id (List.mem_of_getElem? hid); omega
              · obtain ⟨k, h1, h2, h3⟩ := g2 hd
                exact ⟨k, h1, h2, Dict.get?_of_mem hnd h3⟩
            · exact g3
          · intro k o hk
            rcases entry_spec t e.nextAgent ls k o (Dict.mem_of_get? hk) with ⟨l, h1, h2, -⟩ | h3
            · left; rw [← hag]; exact List.mem_map.mpr ⟨l, h1, h2⟩
            · exact Or.inr h3
          · intro k hk
            rcases mem_assign t e.nextAgent ls k hk with ⟨l, h1, h2, -⟩ | h3
            · left; rw [← hag]; exact List.mem_map.mpr ⟨l, h1, h2⟩
            · exact Or.inr h3.1
        · simp at hs

theorem initials_ok (ids : List Nat) (obs : List ω) (r : List (Nat × Obs ω ρ)) (h : initials ids obs = .ok r) :
    Dict.keys r = ids ∧ ids.length ≤ obs.length ∧
      ∀ (i id : Nat), ids[i]? = some id → ∃ o, obs[i]? = some o ∧ (id, (⟨.initial, o, none⟩ : Obs ω ρ)) ∈ r := by
  induction ids generalizing obs r with
  | nil => simp only [initials, Except.ok.injEq] at h; subst h; simp
  | cons id ids ih =>
    cases obs with
    | nil => simp [initials] at h
    | cons o obs =>
      simp only [initials] at h
      cases hr : (initials ids obs : Except Err (List (Nat × Obs ω ρ))) with
      | error e => simp [hr] at h
      | ok r' =>
        simp only [hr, Except.ok.injEq] at h
        subst h
        obtain ⟨h1, h2, h3⟩ := ih obs r' hr
        refine ⟨by simp [h1], by simpa using h2, fun i id' hi => ?_⟩
        cases i with
        | zero =>
          simp only [List.getElem?_cons_zero, Option.some.injEq] at hi
          subst hi; exact ⟨o, by simp, by simp⟩
        | succ i =>
          obtain ⟨o', h4, h5⟩ := h3 i id' (by simpa using hi)
          exact ⟨o', by simpa using h4, List.mem_cons_of_mem _ h5⟩

theorem initials_of (ids : List Nat) (obs : List ω) (h : ids.length ≤ obs.length) :
    ∃ r, (initials ids obs : Except Err (List (Nat × Obs ω ρ))) = .ok r := by
  induction ids generalizing obs with
  | nil => exact ⟨[], rfl⟩
  | cons id ids ih =>
    cases obs with
    | nil => simp at h
    | cons o obs =>
      obtain ⟨r, hr⟩ := ih obs (by simpa using h)
      exact ⟨(id, ⟨.initial, o, none⟩) :: r, by simp only [initials, hr]⟩

theorem initials_states (ids : List Nat) (obs : List ω) (r : List (Nat × Obs ω ρ)) (h : initials ids obs = .ok r) :
    ∀ p ∈ r, p.2.state = .initial := by
  induction ids generalizing obs r with
  | nil => simp only [initials, Except.ok.injEq] at h; subst h; simp
  | cons id ids ih =>
    cases obs with
    | nil => simp [initials] at h
    | cons o obs =>
      simp only [initials] at h
      cases hr : (initials ids obs : Except Err (List (Nat × Obs ω ρ))) with
      | error e => simp [hr] at h
      | ok r' =>
        simp only [hr, Except.ok.injEq] at h
        subst h
        intro p hp
        rcases List.mem_cons.mp hp with rfl | hp
        · rfl
        · exact ih obs r' hr p hp

/-- What a reset does, seen from outside. -/
structure ResetSpec (e e' : Env ω) (obs : List ω) (res : Except Err (Dict Nat (Obs ω ρ))) : Prop where
  inv : Inv e'
  num : e'.numEnvs = e.numEnvs
  mono : e.nextAgent ≤ e'.nextAgent
  new : ∀ k ∈ e'.ids, e.nextAgent ≤ k
  current : e'.current = some obs ∧ e'.init = some obs
  ok : e.numEnvs ≤ obs.length → ∃ r, res = .ok r
  result : ∀ r, res = .ok r → Dict.keys r = e'.ids ∧ (∀ p ∈ r, p.2.state = .initial) ∧ e.numEnvs ≤ obs.length ∧
    ∀ (i id : Nat), e'.ids[i]? = some id → ∃ o, obs[i]? = some o ∧ Dict.get? r id = some ⟨.initial, o, none⟩

theorem reset_spec (e e' : Env ω) (obs : List ω) (n : Nat) (res : Except Err (Dict Nat (Obs ω ρ)))
    (hs : e.dictReset obs n = (e', res)) : ResetSpec e e' obs res := by
  have hnd : (fresh e.nextAgent e.numEnvs).Nodup := List.nodup_range'
  unfold Env.dictReset at hs
  simp only at hs
  have common : ∀ e0 : Env ω, e0 = { e with timestep := 0, lenRollout := n, current := some obs, init := some obs, ids := fresh e.nextAgent e.numEnvs, nextAgent := e.nextAgent + e.numEnvs } →
      Inv e0 ∧ (∀ k ∈ e0.ids, e.nextAgent ≤ k) := by
    rintro e0 rfl
    refine ⟨⟨hnd, fun k hk => ?_, by simp [fresh], fun c hc => ⟨obs, rfl, by simp only [Option.some.injEq] at hc; rw [hc]⟩⟩, fun k hk => ?_⟩
    · have := (List.mem_range'_1.mp hk).2; simp only; omega
    · exact (List.mem_range'_1.mp hk).1
  cases hi : (initials (fresh e.nextAgent e.numEnvs) obs : Except Err (List (Nat × Obs ω ρ))) with
  | error err =>
    simp only [hi, Prod.mk.injEq] at hs
    obtain ⟨he, rfl⟩ := hs
    obtain ⟨c1, c2⟩ := common e' he.symm
    subst he
    refine ⟨c1, rfl, by simp, c2, ⟨rfl, rfl⟩, fun h => ?_, fun r h => by cases h⟩
    obtain ⟨r, hr⟩ := initials_of (ρ := ρ) (fresh e.nextAgent e.numEnvs) obs (by simpa [fresh] using h)
    rw [hi] at hr; cases hr
  | ok l =>
    simp only [hi, Prod.mk.injEq] at hs
    obtain ⟨he, rfl⟩ := hs
    obtain ⟨c1, c2⟩ := common e' he.symm
    subst he
    obtain ⟨h1, h2, h3⟩ := initials_ok _ _ _ hi
    have hl : Dict.ofPairs l = l := ofPairs_of_nodup l (h1 ▸ hnd)
    refine ⟨c1, rfl, by simp, c2, ⟨rfl, rfl⟩, fun _ => ⟨_, rfl⟩, fun r hr => ?_⟩
    rw [hl] at hr
    cases hr
    refine ⟨h1, initials_states _ _ _ hi, by simpa [fresh] using h2, fun i id hid => ?_⟩
    obtain ⟨o, h4, h5⟩ := h3 i id hid
    exact ⟨o, h4, Dict.get?_of_mem (h1 ▸ hnd) h5⟩

theorem reset_spec' (e : Env ω) (obs : List ω) (n : Nat) :
    ResetSpec (ρ := ρ) e (e.dictReset (ρ := ρ) obs n).1 obs (e.dictReset (ρ := ρ) obs n).2 := reset_spec e _ obs n _ rfl

theorem step_error (e e' : Env ω) (w : World ω α ρ) (actions : Dict Nat α) (err : Err)
    (hs : e.dictStep w actions = (e', .error err)) : e' = e := by
  unfold Env.dictStep at hs
  repeat' split at hs
  all_goals simp_all

theorem inv_new (n : Nat) : Inv (Env.new n : Env ω) :=
  ⟨List.nodup_range', fun k hk => by have := (List.mem_range'_1.mp hk).2; simp only [Env.new]; omega, by simp [Env.new, fresh],
    fun c hc => by cases hc⟩

theorem run_append (e : Env ω) (cs ds : List (Call ω α ρ)) :
    e.run (cs ++ ds) = (((e.run cs).1.run ds).1, (e.run cs).2 ++ ((e.run cs).1.run ds).2) := by
  induction cs generalizing e with
  | nil => rfl
  | cons c cs ih => simp only [List.cons_append, Env.run, ih]

theorem call_inv (e : Env ω) (h : Inv e) (c : Call ω α ρ) : Inv (e.call c).1 ∧ (e.call c).1.numEnvs = e.numEnvs := by
  cases c with
  | reset obs n =>
    have := reset_spec' (ρ := ρ) e obs n
    exact ⟨this.inv, this.num⟩
  | step w actions =>
    cases hr : (e.dictStep w actions).2 with
    | error err =>
      have := step_error e (e.dictStep w actions).1 w actions err (by rw [← hr])
      simp only [Env.call]; rw [this]; exact ⟨h, rfl⟩
    | ok r =>
      have := step_spec e (e.dictStep w actions).1 h w actions r (by rw [← hr])
      exact ⟨this.inv, this.num⟩

theorem run_inv (n : Nat) (cs : List (Call ω α ρ)) :
    Inv ((Env.new n).run cs).1 ∧ ((Env.new n : Env ω).run cs).1.numEnvs = n := by
  induction cs using snocInduction with
  | nil => exact ⟨inv_new n, rfl⟩
  | snoc cs c ih =>
    rw [run_append]
    obtain ⟨h1, h2⟩ := call_inv _ ih.1 c
    exact ⟨h1, h2.trans ih.2⟩

/-! ## C67 -/

/-- The states in which an agent appears in the results of the calls. -/
def seen (a : Nat) (results : List (Except Err (Dict Nat (Obs ω ρ)))) : List EpState :=
  results.filterMap fun r => match r with
    | .ok d => (Dict.get? d a).map Obs.state
    | .error _ => none

/-- after the beginning: any number of running ones, at most one end, and nothing after it -/
def Spec.goesOn : List EpState → Bool
  | [] => true
  | .running :: l => Spec.goesOn l
  | .terminal :: l => l.isEmpty
  | .interrupted :: l => l.isEmpty
  | .initial :: _ => false

/-- The life of an agent: nothing at all, or a beginning and then what may come after. -/
def Spec.life : List EpState → Bool
  | [] => true
  | .initial :: l => Spec.goesOn l
  | _ => false

/-- an agent that has begun and not ended -/
def alive (l : List EpState) : Prop := ∃ k, l = .initial :: List.replicate k .running

theorem goesOn_running (k : Nat) (l : List EpState) : Spec.goesOn (List.replicate k .running ++ l) = Spec.goesOn l := by
  induction k with
  | zero => rfl
  | succ k ih => simpa [List.replicate_succ, Spec.goesOn] using ih

theorem life_of_alive {l : List EpState} (h : alive l) (s : EpState) (hs : s ≠ .initial) : Spec.life (l ++ [s]) = true := by
  obtain ⟨k, rfl⟩ := h
  simp only [List.cons_append, Spec.life, goesOn_running]
  cases s <;> simp_all [Spec.goesOn]

theorem alive_life {l : List EpState} (h : alive l) : Spec.life l = true := by
  obtain ⟨k, rfl⟩ := h
  have := goesOn_running k []
  simpa [Spec.life, Spec.goesOn] using this

theorem alive_running {l : List EpState} (h : alive l) : alive (l ++ [.running]) := by
  obtain ⟨k, rfl⟩ := h
  exact ⟨k + 1, by simp [List.replicate_succ']⟩

/-- What has been seen of the agents, given the environment. -/
structure HistInv (e : Env ω) (h : Nat → List EpState) : Prop where
  new : ∀ a, e.nextAgent ≤ a → h a = []
  life : ∀ a, Spec.life (h a) = true
  ids : ∀ a ∈ e.ids, h a = [] ∨ alive (h a)
  ready : (∃ c, e.current = some c ∧ c.length = e.numEnvs) → ∀ a ∈ e.ids, alive (h a)

theorem hist_inv (n : Nat) (cs : List (Call ω α ρ)) :
    HistInv ((Env.new n : Env ω).run cs).1 fun a => seen a ((Env.new n : Env ω).run cs).2 := by
  induction cs using snocInduction with
  | nil =>
    refine ⟨fun a _ => rfl, fun a => rfl, fun a _ => Or.inl rfl, ?_⟩
    rintro ⟨c, hc, -⟩; cases hc
  | snoc cs c ih =>
    rw [run_append]
    obtain ⟨hinv, -⟩ := run_inv (α := α) (ρ := ρ) (ω := ω) n cs
    generalize (Env.new n : Env ω).run cs = p at ih hinv
    obtain ⟨e, rs⟩ := p
    simp only [Env.run]
    have hseen : ∀ a (r : Except Err (Dict Nat (Obs ω ρ))), seen a (rs ++ [r]) = seen a rs ++ seen a [r] := fun a r => by
      simp [seen, List.filterMap_append]
    have herr : ∀ a err, seen a [(.error err : Except Err (Dict Nat (Obs ω ρ)))] = [] := fun a err => rfl
    have hok : ∀ a r, seen a [(.ok r : Except Err (Dict Nat (Obs ω ρ)))] = ((Dict.get? r a).map Obs.state).toList := fun a r => by
      simp only [seen]
      cases hg : (Dict.get? r a).map Obs.state <;> simp [hg]
    have hnone : ∀ a r, Dict.get? r a = none → seen a [(.ok r : Except Err (Dict Nat (Obs ω ρ)))] = [] := fun a r h => by
      rw [hok, h]; rfl
    have hsome : ∀ a r o, Dict.get? r a = some o → seen a [(.ok r : Except Err (Dict Nat (Obs ω ρ)))] = [o.state] := fun a r o h => by
      rw [hok, h]; rfl
    cases c with
    | reset obs len =>
      simp only [Env.call]
      have hr := reset_spec' (ρ := ρ) e obs len
      generalize (e.dictReset (ρ := ρ) obs len).1 = e' at hr ⊢
      generalize (e.dictReset (ρ := ρ) obs len).2 = res at hr ⊢
      have hold : ∀ a ∈ e'.ids, seen a rs = [] := fun a ha => ih.new a (hr.new a ha)
      have alive1 : alive [EpState.initial] := ⟨0, rfl⟩
      cases res with
      | error err =>
        simp only [hseen, herr, List.append_nil]
        refine ⟨fun a ha => ih.new a (Nat.le_trans hr.mono ha), ih.life, fun a ha => Or.inl (hold a ha), ?_⟩
        rintro ⟨c, hc, hl⟩
        rw [hr.current.1] at hc; cases hc
        obtain ⟨r, h⟩ := hr.ok (by rw [hl, hr.num]; exact Nat.le_refl _)
        cases h
      | ok r =>
        obtain ⟨h1, h2, -, h3⟩ := hr.result r rfl
        have hin : ∀ a ∈ e'.ids, seen a rs ++ seen a [(.ok r : Except Err (Dict Nat (Obs ω ρ)))] = [.initial] := fun a ha => by
          obtain ⟨i, hi⟩ := List.mem_iff_getElem?.mp ha
          obtain ⟨o, -, h5⟩ := h3 i a hi
          rw [hold a ha, hsome a r _ h5]; rfl
        have hout : ∀ a, a ∉ e'.ids → seen a [(.ok r : Except Err (Dict Nat (Obs ω ρ)))] = [] := fun a ha =>
          hnone a r (Dict.get?_none_iff.mpr (h1 ▸ ha))
        simp only [hseen]
        refine ⟨fun a ha => ?_, fun a => ?_, fun a ha => Or.inr (hin a ha ▸ alive1), fun _ a ha => hin a ha ▸ alive1⟩
        · rw [hout a (fun hm => by have := hr.inv.lt a hm; omega), ih.new a (Nat.le_trans hr.mono ha)]; rfl
        · by_cases ha : a ∈ e'.ids
          · rw [hin a ha]; rfl
          · rw [hout a ha, List.append_nil]; exact ih.life a
    | step w actions =>
      simp only [Env.call]
      cases hres : (e.dictStep w actions).2 with
      | error err =>
        have := step_error e (e.dictStep w actions).1 w actions err (by rw [← hres])
        rw [this]
        simp only [hseen, herr, List.append_nil]
        exact ih
      | ok r =>
        have hs := step_spec e (e.dictStep w actions).1 hinv w actions r (by rw [← hres])
        generalize (e.dictStep w actions).1 = e' at hs ⊢
        have hal := ih.ready hs.ready
        simp only [hseen]
        have hout : ∀ a, a ∉ e.ids → a ∉ e'.ids → seen a [(.ok r : Except Err (Dict Nat (Obs ω ρ)))] = [] := fun a h1 h2 => by
          apply hnone
          cases hg : Dict.get? r a with
          | none => rfl
          | some o => rcases hs.only a o hg with h | h <;> tauto
        have hin : ∀ a ∈ e.ids, ∃ s, s ≠ .initial ∧ seen a [(.ok r : Except Err (Dict Nat (Obs ω ρ)))] = [s] ∧ (a ∈ e'.ids → s = .running) := by
          intro a ha
          obtain ⟨i, hi⟩ := List.mem_iff_getElem?.mp ha
          obtain ⟨o, act, ini, -, -, -, -, h1, h2, h3⟩ := hs.row i a hi
          refine ⟨_, ?_, hsome a r _ h1, fun hm => ?_⟩
          · simp only; repeat' split
            all_goals simp
          · by_cases hd : (w.done i (w.sample i o act).1 || decide (e.lenRollout ≤ e.timestep + 1)) = true
            · exact absurd hm (h2 hd).1
            · simp only [Bool.or_eq_true, not_or, Bool.not_eq_true] at hd
              simp [hd.1, hd.2]
        have hnew : ∀ a ∈ e'.ids, a ∉ e.ids → seen a [(.ok r : Except Err (Dict Nat (Obs ω ρ)))] = [.initial] ∧ seen a rs = [] := by
          intro a ha hn
          have hk : a ∈ Dict.keys (r.filter fun p => p.2.state = .initial ∨ p.2.state = .running) := hs.live.mem_iff.mpr ha
          obtain ⟨p, hp, rfl⟩ := List.mem_map.mp hk
          have hp := (List.mem_filter.mp hp).1
          have hg := Dict.get?_of_mem hs.nodup (k := p.1) (v := p.2) hp
          rcases hs.only _ _ hg with h | h
          · exact absurd h hn
          · exact ⟨by rw [hsome _ r _ hg, h.2.2], ih.new _ h.1⟩
        have hboth : ∀ a ∈ e'.ids, alive (seen a rs ++ seen a [(.ok r : Except Err (Dict Nat (Obs ω ρ)))]) := by
          intro a ha
          by_cases hm : a ∈ e.ids
          · obtain ⟨s, -, h2, h3⟩ := hin a hm
            rw [h2, h3 ha]
            exact alive_running (hal a hm)
          · obtain ⟨h1, h2⟩ := hnew a ha hm
            rw [h1, h2]; exact ⟨0, rfl⟩
        refine ⟨fun a ha => ?_, fun a => ?_, fun a ha => Or.inr (hboth a ha), fun _ a ha => hboth a ha⟩
        · rw [hout a (fun hm => by have := hinv.lt a hm; have := hs.mono; simp only at *; omega)
            (fun hm => by have := hs.inv.lt a hm; omega), ih.new a (Nat.le_trans hs.mono ha)]; rfl
        · by_cases ha : a ∈ e.ids
          · obtain ⟨s, h1, h2, -⟩ := hin a ha
            rw [h2]
            exact life_of_alive (hal a ha) s h1
          · by_cases hb : a ∈ e'.ids
            · exact alive_life (hboth a hb)
            · rw [hout a ha hb, List.append_nil]; exact ih.life a

/-- C67: for any history of resets and steps, every agent begins once, then runs, ends at most once and is not seen
again. -/
theorem C67_life (n : Nat) (cs : List (Call ω α ρ)) (a : Nat) :
    Spec.life (seen a ((Env.new n : Env ω).run cs).2) = true := (hist_inv n cs).life a

/-- The agents of a result whose episode goes on. -/
def live (r : Dict Nat (Obs ω ρ)) : List Nat :=
  Dict.keys (r.filter fun p => p.2.state = .initial ∨ p.2.state = .running)

/-- C67: every result has each agent once, and exactly as many that go on as there are environments. -/
theorem C67_live (n : Nat) (cs : List (Call ω α ρ)) (r : Dict Nat (Obs ω ρ))
    (hr : .ok r ∈ ((Env.new n : Env ω).run cs).2) : (Dict.keys r).Nodup ∧ (live r).length = n := by
  induction cs using snocInduction with
  | nil => cases hr
  | snoc cs c ih =>
    rw [run_append] at hr
    rcases List.mem_append.mp hr with hr | hr
    · exact ih hr
    · obtain ⟨hinv, hn⟩ := run_inv (α := α) (ρ := ρ) (ω := ω) n cs
      generalize (Env.new n : Env ω).run cs = p at hr hinv hn
      simp only [Env.run, List.mem_singleton] at hr
      cases c with
      | reset obs len =>
        have hs := reset_spec' (ρ := ρ) p.1 obs len
        obtain ⟨h1, h2, -⟩ := hs.result r hr.symm
        refine ⟨h1 ▸ hs.inv.nodup, ?_⟩
        have : r.filter (fun p => p.2.state = .initial ∨ p.2.state = .running) = r :=
          List.filter_eq_self.mpr fun p hp => by simp [h2 p hp]
        rw [live, this, h1, hs.inv.length, hs.num, hn]
      | step w actions =>
        have hs := step_spec p.1 (p.1.dictStep w actions).1 hinv w actions r (by rw [hr]; rfl)
        exact ⟨hs.nodup, by rw [live, hs.live.length_eq, hs.inv.length, hs.num, hn]⟩

theorem run_ready (e : Env ω) (h : Inv e) (hc : ∃ c, e.current = some c ∧ c.length = e.numEnvs)
    (steps : List (World ω α ρ × Dict Nat α)) :
    ∃ c, (e.run (steps.map fun s => .step s.1 s.2)).1.current = some c ∧ c.length = e.numEnvs := by
  induction steps generalizing e with
  | nil => exact hc
  | cons s steps ih =>
    simp only [List.map_cons, Env.run, Env.call]
    cases hr : (e.dictStep s.1 s.2).2 with
    | error err =>
      have := step_error e (e.dictStep s.1 s.2).1 s.1 s.2 err (by rw [← hr])
      rw [this]; exact ih e h hc
    | ok r =>
      have hs := step_spec e (e.dictStep s.1 s.2).1 h s.1 s.2 r (by rw [← hr])
      have := ih _ hs.inv (by rw [hs.num]; exact hs.ready')
      rwa [hs.num] at this

/-- the agents that go on are those for which the environment wants actions -/
theorem live_ids (n : Nat) (cs : List (Call ω α ρ)) (r : Dict Nat (Obs ω ρ))
    (hl : ((Env.new n : Env ω).run cs).2.getLast? = some (.ok r)) : (live r).Perm ((Env.new n : Env ω).run cs).1.ids := by
  induction cs using snocInduction with
  | nil => cases hl
  | snoc cs c _ =>
    obtain ⟨hinv, hnum⟩ := run_inv (α := α) (ρ := ρ) (ω := ω) n cs
    rw [run_append] at hl ⊢
    generalize (Env.new n : Env ω).run cs = p at hl hinv hnum
    simp only [Env.run, List.getLast?_concat, Option.some.injEq] at hl ⊢
    cases c with
    | reset obs len =>
      have hs := reset_spec' (ρ := ρ) p.1 obs len
      obtain ⟨h4, h5, -⟩ := hs.result r hl
      have : r.filter (fun p => p.2.state = .initial ∨ p.2.state = .running) = r :=
        List.filter_eq_self.mpr fun p hp => by simp [h5 p hp]
      rw [live, this, h4]
      exact List.Perm.refl _
    | step w actions => exact (step_spec p.1 (p.1.dictStep w actions).1 hinv w actions r (by rw [← hl]; rfl)).live

/-- C67: after a reset with one observation for each of the (one or more) environments, and then any steps, a step
succeeds if it has an action for each of the agents of the last result that go on. -/
theorem C67_succeeds (n : Nat) (hn : 0 < n) (before : List (Call ω α ρ)) (obs : List ω) (len : Nat) (ho : obs.length = n)
    (steps : List (World ω α ρ × Dict Nat α)) (r : Dict Nat (Obs ω ρ))
    (hl : ((Env.new n : Env ω).run (before ++ .reset obs len :: steps.map fun s => .step s.1 s.2)).2.getLast? = some (.ok r))
    (w : World ω α ρ) (actions : Dict Nat α) (ha : ∀ a ∈ live r, a ∈ Dict.keys actions) :
    ∃ r', (((Env.new n : Env ω).run (before ++ .reset obs len :: steps.map fun s => .step s.1 s.2)).1.dictStep w actions).2 = .ok r' := by
  have hp := live_ids n _ r hl
  obtain ⟨hinv, hnum⟩ := run_inv (α := α) (ρ := ρ) (ω := ω) n (before ++ .reset obs len :: steps.map fun s => .step s.1 s.2)
  have hcur : ∃ c, ((Env.new n : Env ω).run (before ++ .reset obs len :: steps.map fun s => .step s.1 s.2)).1.current = some c ∧ c.length = n := by
    obtain ⟨-, hnum0⟩ := run_inv (α := α) (ρ := ρ) (ω := ω) n before
    rw [run_append]
    generalize (Env.new n : Env ω).run before = p at hnum0
    simp only [Env.run, Env.call]
    have hs := reset_spec' (ρ := ρ) p.1 obs len
    have := run_ready (α := α) (ρ := ρ) _ hs.inv ⟨obs, hs.current.1, by rw [hs.num, hnum0, ho]⟩ steps
    rwa [hs.num, hnum0] at this
  generalize ((Env.new n : Env ω).run (before ++ .reset obs len :: steps.map fun s => .step s.1 s.2)).1 = e at hp hinv hnum hcur
  obtain ⟨as, has⟩ := collect_of actions e.ids fun id hid => ha id (hp.mem_iff.mpr hid)
  obtain ⟨hal, -⟩ := collect_ok _ _ _ has
  obtain ⟨cur, hcur, hc⟩ := hcur
  obtain ⟨init, hi, -⟩ := hinv.sizes cur hcur
  have h1 : as.length ≠ 0 := by rw [hal, hinv.length, hnum]; omega
  have h2 : cur.length = as.length := by rw [hc, hal, hinv.length, hnum]
  simp only [Env.dictStep, has, if_neg h1, hcur, hi, if_pos h2]
  exact ⟨_, rfl⟩

theorem step_time (e e' : Env ω) (w : World ω α ρ) (actions : Dict Nat α) (r : Dict Nat (Obs ω ρ))
    (hs : e.dictStep w actions = (e', .ok r)) : e'.timestep = e.timestep + 1 ∧ e'.lenRollout = e.lenRollout := by
  unfold Env.dictStep at hs
  repeat' split at hs
  all_goals simp only [Prod.mk.injEq, reduceCtorEq, and_false] at hs
  all_goals obtain ⟨rfl, -⟩ := hs
  all_goals exact ⟨rfl, rfl⟩

theorem reset_time (e : Env ω) (obs : List ω) (n : Nat) :
    (e.dictReset (ρ := ρ) obs n).1.timestep = 0 ∧ (e.dictReset (ρ := ρ) obs n).1.lenRollout = n := by
  unfold Env.dictReset
  simp only
  split <;> exact ⟨rfl, rfl⟩

/-- The number of calls that did not raise. -/
def done (rs : List (Except Err (Dict Nat (Obs ω ρ)))) : Nat := (rs.filter Except.isOk).length

theorem run_timestep (e : Env ω) (h : Inv e) (steps : List (World ω α ρ × Dict Nat α)) :
    (e.run (steps.map fun s => .step s.1 s.2)).1.timestep = e.timestep + done (e.run (steps.map fun s => .step s.1 s.2)).2 ∧
    (e.run (steps.map fun s => .step s.1 s.2)).1.lenRollout = e.lenRollout := by
  induction steps generalizing e with
  | nil => exact ⟨rfl, rfl⟩
  | cons s steps ih =>
    simp only [List.map_cons, Env.run, Env.call]
    cases hr : (e.dictStep s.1 s.2).2 with
    | error err =>
      have := step_error e (e.dictStep s.1 s.2).1 s.1 s.2 err (by rw [← hr])
      rw [this]; exact ih e h
    | ok r =>
      have hs := step_spec e (e.dictStep s.1 s.2).1 h s.1 s.2 r (by rw [← hr])
      obtain ⟨h1, h2⟩ := ih _ hs.inv
      obtain ⟨h3, h4⟩ := step_time e (e.dictStep s.1 s.2).1 s.1 s.2 r (by rw [← hr])
      refine ⟨?_, by rw [h2, h4]⟩
      rw [h1, h3]
      simp only [done, List.filter_cons, Except.isOk, Except.toBool, if_true, List.length_cons]
      omega

/-- C67: what a step after a reset and further steps says about an agent that went on so far: it has the new observation
and the reward; its episode ends as terminal if the new observation is a final one and otherwise as interrupted if the
rollout has its full length. All other agents begin their episode. -/
theorem C67_step (n : Nat) (before : List (Call ω α ρ)) (obs : List ω) (len : Nat)
    (steps : List (World ω α ρ × Dict Nat α)) (r : Dict Nat (Obs ω ρ)) (rs : List (Except Err (Dict Nat (Obs ω ρ))))
    (hrs : ((Env.new n : Env ω).run (before ++ .reset obs len :: steps.map fun s => .step s.1 s.2)).2 =
      ((Env.new n : Env ω).run (before ++ [.reset obs len])).2 ++ rs)
    (hl : ((Env.new n : Env ω).run (before ++ .reset obs len :: steps.map fun s => .step s.1 s.2)).2.getLast? = some (.ok r))
    (w : World ω α ρ) (actions : Dict Nat α) (r' : Dict Nat (Obs ω ρ))
    (hr : (((Env.new n : Env ω).run (before ++ .reset obs len :: steps.map fun s => .step s.1 s.2)).1.dictStep w actions).2 = .ok r')
    (a : Nat) :
    (a ∈ live r → ∃ i < n, ∃ o act, Dict.get? actions a = some act ∧
        Dict.get? r' a = some ⟨if w.done i (w.sample i o act).1 then .terminal else
            if len ≤ done rs + 1 then .interrupted else .running,
          (w.sample i o act).1, some (w.sample i o act).2⟩) ∧
      (a ∉ live r → ∀ ob, Dict.get? r' a = some ob → ob.state = .initial ∧ ob.reward = none) := by
  have hp := live_ids n _ r hl
  obtain ⟨hinv, hnum⟩ := run_inv (α := α) (ρ := ρ) (ω := ω) n (before ++ .reset obs len :: steps.map fun s => .step s.1 s.2)
  have htime : ((Env.new n : Env ω).run (before ++ .reset obs len :: steps.map fun s => .step s.1 s.2)).1.timestep = done rs ∧
      ((Env.new n : Env ω).run (before ++ .reset obs len :: steps.map fun s => .step s.1 s.2)).1.lenRollout = len := by
    rw [run_append, run_append] at hrs
    rw [run_append]
    generalize (Env.new n : Env ω).run before = p at hrs
    simp only [Env.run, Env.call, List.append_assoc, List.singleton_append, List.append_cancel_left_eq, List.cons.injEq, true_and] at hrs ⊢
    have hs := reset_spec' (ρ := ρ) p.1 obs len
    obtain ⟨h1, h2⟩ := run_timestep (α := α) (ρ := ρ) _ hs.inv steps
    obtain ⟨h3, h4⟩ := reset_time (ρ := ρ) p.1 obs len
    rw [h1, h2, h3, h4, hrs]
    exact ⟨Nat.zero_add _, rfl⟩
  generalize ((Env.new n : Env ω).run (before ++ .reset obs len :: steps.map fun s => .step s.1 s.2)).1 = e at hp hinv hnum hr htime
  have hs := step_spec e (e.dictStep w actions).1 hinv w actions r' (by rw [← hr])
  refine ⟨fun ha => ?_, fun ha ob hob => ?_⟩
  · obtain ⟨i, hi⟩ := List.mem_iff_getElem?.mp (hp.mem_iff.mp ha)
    obtain ⟨o, act, ini, -, h1, -, -, h2, -⟩ := hs.row i a hi
    simp only [htime.1, htime.2, decide_eq_true_eq] at h2
    exact ⟨i, by rw [← hnum, ← hinv.length]; exact (List.getElem?_eq_some_iff.mp hi).1, o, act, h1, h2⟩
  · rcases hs.only a ob hob with h | ⟨h1, h2, h3⟩
    · exact absurd (hp.mem_iff.mpr h) ha
    · refine ⟨h3, ?_⟩
      obtain ⟨i, hi⟩ := List.mem_iff_getElem?.mp h2
      have hil : i < e.ids.length := by
        have := (List.getElem?_eq_some_iff.mp hi).1
        rwa [hs.inv.length, hs.num, ← hinv.length] at this
      obtain ⟨o, act, ini, -, -, -, -, -, g1, g2⟩ := hs.row i _ (List.getElem?_eq_getElem hil)
      cases hd : (w.done i (w.sample i o act).1 || decide (e.lenRollout ≤ e.timestep + 1)) with
      | true =>
        obtain ⟨-, k, h4, -, h6⟩ := g1 hd
        rw [hi] at h4; cases h4
        rw [hob] at h6; cases h6; rfl
      | false =>
        have := g2 hd
        rw [hi] at this; cases this
        exact absurd (hp.mem_iff.mpr (List.getElem_mem hil)) ha

/-! ## C86 -/

/-- C86, the claim: an agent's next observation and reward are the model's for its last observation and its action. -/
def C86_claim : Prop :=
  ∀ (n : Nat) (cs : List (Call Nat Nat Nat)) (r r' : Dict Nat (Obs Nat Nat)) (w : World Nat Nat Nat) (actions : Dict Nat Nat),
    ((Env.new n : Env Nat).run cs).2.getLast? = some (.ok r) →
    (((Env.new n : Env Nat).run cs).1.dictStep w actions).2 = .ok r' →
    ∀ a ob ob', Dict.get? r a = some ob → Dict.get? r' a = some ob' →
      ∃ i < n, ∃ act, Dict.get? actions a = some act ∧ ob'.data = (w.sample i ob.data act).1 ∧
        ob'.reward = some (w.sample i ob.data act).2

/-- the observation an environment goes on from, for the agents that did not begin within a step -/
theorem current_of (n : Nat) (cs : List (Call ω α ρ)) (r : Dict Nat (Obs ω ρ))
    (hl : ((Env.new n : Env ω).run cs).2.getLast? = some (.ok r)) (i a : Nat) (ob : Obs ω ρ)
    (hi : ((Env.new n : Env ω).run cs).1.ids[i]? = some a) (hob : Dict.get? r a = some ob)
    (hc : ob.state = .running ∨ ∃ before obs len, cs = before ++ [.reset obs len]) :
    ((Env.new n : Env ω).run cs).1.current.bind (·[i]?) = some ob.data := by
  induction cs using snocInduction with
  | nil => cases hl
  | snoc cs c _ =>
    obtain ⟨hinv, hnum⟩ := run_inv (α := α) (ρ := ρ) (ω := ω) n cs
    rw [run_append] at hl hi ⊢
    generalize (Env.new n : Env ω).run cs = p at hl hinv hnum hi
    simp only [Env.run, List.getLast?_concat, Option.some.injEq] at hl hi ⊢
    cases c with
    | reset obs len =>
      have hs := reset_spec' (ρ := ρ) p.1 obs len
      obtain ⟨-, -, -, h4⟩ := hs.result r hl
      obtain ⟨o, h5, h6⟩ := h4 i a hi
      rw [h6] at hob; cases hob
      simp only [Env.call]
      rw [hs.current.1]
      exact h5
    | step w actions =>
      have hs := step_spec p.1 (p.1.dictStep w actions).1 hinv w actions r (by rw [← hl]; rfl)
      have hrun : ob.state = .running := by
        rcases hc with h | ⟨b, o, l, h⟩
        · exact h
        · have := List.append_inj_right' h rfl; simp at this
      have hil : i < p.1.ids.length := by
        have := (List.getElem?_eq_some_iff.mp hi).1
        simp only [Env.call] at this
        rwa [hs.inv.length, hs.num, ← hinv.length] at this
      obtain ⟨o, act, ini, -, -, -, h1, h2, g1, g2⟩ := hs.row i _ (List.getElem?_eq_getElem hil)
      simp only [Env.call] at hi ⊢
      rw [h1]
      cases hd : (w.done i (w.sample i o act).1 || decide (p.1.lenRollout ≤ p.1.timestep + 1)) with
      | true =>
        obtain ⟨-, k, h4, -, h6⟩ := g1 hd
        rw [hi] at h4; cases h4
        rw [hob] at h6; cases h6; cases hrun
      | false =>
        have := g2 hd
        rw [hi] at this; cases this
        rw [hob] at h2; cases h2; rfl

/-- C86 for agents that run already or that have begun with a reset. -/
theorem C86_partial (n : Nat) (cs : List (Call ω α ρ)) (r r' : Dict Nat (Obs ω ρ)) (w : World ω α ρ) (actions : Dict Nat α)
    (hl : ((Env.new n : Env ω).run cs).2.getLast? = some (.ok r))
    (hr : (((Env.new n : Env ω).run cs).1.dictStep w actions).2 = .ok r') (a : Nat) (ob ob' : Obs ω ρ)
    (h1 : Dict.get? r a = some ob) (h2 : Dict.get? r' a = some ob')
    (hc : ob.state = .running ∨ ∃ before obs len, cs = before ++ [.reset obs len]) :
    ∃ i < n, ∃ act, Dict.get? actions a = some act ∧ ob'.data = (w.sample i ob.data act).1 ∧
        ob'.reward = some (w.sample i ob.data act).2 := by
  have hp := live_ids n _ r hl
  obtain ⟨hinv, hnum⟩ := run_inv (α := α) (ρ := ρ) (ω := ω) n cs
  have hal : a ∈ live r := by
    refine List.mem_map.mpr ⟨(a, ob), List.mem_filter.mpr ⟨Dict.mem_of_get? h1, ?_⟩, rfl⟩
    rcases hc with h | ⟨b, o, l, rfl⟩
    · simp [h]
    · rw [run_append] at hl
      simp only [Env.run, List.getLast?_concat, Option.some.injEq] at hl
      have hs := reset_spec' (ρ := ρ) ((Env.new n : Env ω).run b).1 o l
      have hst : ob.state = .initial := (hs.result r hl).2.1 (a, ob) (Dict.mem_of_get? h1)
      simp [hst]
  obtain ⟨i, hi⟩ := List.mem_iff_getElem?.mp (hp.mem_iff.mp hal)
  have hcur := current_of n cs r hl i a ob hi h1 hc
  generalize ((Env.new n : Env ω).run cs).1 = e at hp hinv hnum hr hi hcur
  have hs := step_spec e (e.dictStep w actions).1 hinv w actions r' (by rw [← hr])
  obtain ⟨o, act, ini, g0, g1, -, -, g2, -⟩ := hs.row i a hi
  rw [hcur] at g0; cases g0
  rw [h2] at g2; cases g2
  exact ⟨i, by rw [← hnum, ← hinv.length]; exact (List.getElem?_eq_some_iff.mp hi).1, act, g1, rfl, rfl⟩

end

/-- the model adds the action to the observation; episodes end at 10 -/
def counter : World Nat Nat Nat := ⟨fun _ o a => (o + a, a), fun _ o => o == 10⟩

/-- one environment, from 9; the first step ends the episode, the next agent begins with 9 -/
def restart : List (Call Nat Nat Nat) := [.reset [9] 100, .step counter [(1, 1)]]

/-- C86 is false for the code: the next agent begins at 9, but goes on from 10, where the last one ended. -/
theorem C86_false : ¬ C86_claim := by
  intro h
  obtain ⟨i, hi, act, h1, h2, -⟩ := h 1 restart [(1, ⟨.terminal, 10, some 1⟩), (2, ⟨.initial, 9, none⟩)] [(2, ⟨.running, 12, some 2⟩)]
    counter [(2, 2)] (by decide +kernel) (by decide +kernel) 2 ⟨.initial, 9, none⟩ ⟨.running, 12, some 2⟩ (by decide +kernel)
    (by decide +kernel)
  have : act = 2 := by
    have e : Dict.get? [((2 : Nat), (2 : Nat))] 2 = some 2 := by decide +kernel
    rw [e] at h1; cases h1; rfl
  subst this
  cases h2

example : ((Env.new 2 : Env Nat).run [.reset [3, 9] 100, .step counter [(2, 1), (3, 1)], .step counter [(2, 5), (4, 5)]]).2 =
    [.ok [(2, ⟨.initial, 3, none⟩), (3, ⟨.initial, 9, none⟩)],
     .ok [(3, ⟨.terminal, 10, some 1⟩), (4, ⟨.initial, 9, none⟩), (2, ⟨.running, 4, some 1⟩)],
     .ok [(2, ⟨.running, 9, some 5⟩), (4, ⟨.running, 15, some 5⟩)]] := by decide +kernel

end MEnv

end Verif
