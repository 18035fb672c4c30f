import Verif.Props.Adaptors
import Verif.Props.Proxy

/-!
# C77: from the environment to the batch

The proxy of `memory.py` in front of a one-step table of `builder.py`, with its adaptors: whatever is sampled is a
transition that one agent really made.
-/

namespace Verif.Props

open Verif Spec

variable {V : Type u} {M : Type v}

/-! ## The environment -/

/-- `s'` is the step that the same agent made after `s`, in the same episode. -/
def Consecutive (h : List (Step V M)) (s s' : Step V M) : Prop :=
  ∃ pre mid post, h = pre ++ s :: (mid ++ s' :: post) ∧ s.ends = false ∧ s'.agent = s.agent ∧
    ∀ x ∈ mid, x.agent ≠ s.agent

/-- An observation has the features `keys`, and a reward unless it is the first one of its episode; while the episode
goes on, the agent answers with its action. -/
structure EnvStep (keys : List String) (s : Step V M) : Prop where
  features : ∀ k, k ∈ s.obs.arrays.keys ↔ k ∈ keys
  reward : s.obs.state ≠ .initial → "reward" ∈ s.obs.rewards.keys
  action : s.ends = false → ∃ r v, s.resp = some r ∧ r.listData = [("actions", v)] ∧ r.scalarData = []

/-- All steps are like that, and the first observation of an episode, and no other one, is marked as initial. -/
structure Environment (keys : List String) (h : List (Step V M)) : Prop where
  steps : ∀ s ∈ h, EnvStep keys s
  starts : ∀ pre s post, h = pre ++ s :: post → (s.obs.state = .initial ↔ ongoing s.agent pre = [] ∧ s.ends = false)

/-- What happens to a proxy and its table. -/
inductive Event (V : Type u) (M : Type v) where
  | add (c : Call V M) (draws : Int → List Nat)
  | resize (n : Int)
  | sample (count n : Nat) (c r : Nat → Nat) (junk : String → Nat → Cell V)

/-- The steps of an event. -/
def Event.steps : Event V M → List (Step V M)
  | .add c _ => c.steps
  | _ => []

/-- The events `es` lead from `p0` to `p`. Adds and resizes return normally; a sample may return or raise (except that
identities do not fit into int64). -/
inductive Life (cfg : ProxyCfg V) (p0 : Proxy V (Table V)) : List (Event V M) → Proxy V (Table V) → Prop where
  | nil : Life cfg p0 [] p0
  | add {es p p' c draws} : Life cfg p0 es p → c.WF →
      Proxy.add cfg (fun a ep t => Table.addSequence (draws a) a ep t) c.observations c.responses p = (p', .ok ()) →
      Life cfg p0 (es ++ [.add c draws]) p'
  | resize {es p t' n} : Life cfg p0 es p → Table.resize p.table n = (t', .ok ()) →
      Life cfg p0 (es ++ [.resize n]) { p with table := t' }
  | sample {es p t' count n c r junk x} : Life cfg p0 es p → Table.sample count n c r junk p.table = (t', x) →
      x ≠ .error .overflowError → Life cfg p0 (es ++ [.sample count n c r junk]) { p with table := t' }

/-! ## Episodes of an environment -/

theorem Environment.prefix {keys : List String} {a b : List (Step V M)} (h : Environment keys (a ++ b)) :
    Environment keys a :=
  ⟨fun s hs => h.steps s (by simp [hs]), fun pre s post e => h.starts pre s (post ++ b) (by rw [e]; simp)⟩

theorem ongoing_mem {a : Int} {h : List (Step V M)} {s : Step V M} (hs : s ∈ ongoing a h) :
    s ∈ h ∧ s.agent = a ∧ s.ends = false := by
  unfold ongoing at hs
  rw [List.mem_reverse] at hs
  have h1 := List.mem_takeWhile_imp hs
  have h2 := (List.takeWhile_sublist _).subset hs
  rw [List.mem_reverse, List.mem_filter] at h2
  exact ⟨h2.1, by simpa using h2.2, by simpa using h1⟩

theorem ongoing_last {a : Int} {h : List (Step V M)} {s : Step V M} (hs : (ongoing a h).getLast? = some s) :
    ∃ pre mid, h = pre ++ s :: mid ∧ ∀ x ∈ mid, x.agent ≠ a := by
  induction h using snocInduction with
  | nil => simp [ongoing] at hs
  | snoc h x ih =>
    by_cases hx : x.agent = a
    · cases he : x.ends with
      | true => rw [ongoing_snoc_ends h hx he] at hs; simp at hs
      | false =>
        rw [ongoing_snoc h hx he] at hs
        simp only [List.getLast?_append, List.getLast?_singleton, Option.some_or, Option.some.injEq] at hs
        subst hs
        exact ⟨h, [], rfl, by simp⟩
    · rw [ongoing_snoc_other h hx] at hs
      obtain ⟨pre, mid, e, hm⟩ := ih hs
      refine ⟨pre, mid ++ [x], by rw [e]; simp, fun y hy => ?_⟩
      rcases List.mem_append.1 hy with hy | hy
      · exact hm y hy
      · rw [List.mem_singleton.1 hy]; exact hx

theorem Consecutive.extend {h : List (Step V M)} {s s' : Step V M} (c : Consecutive h s s') (b : List (Step V M)) :
    Consecutive (h ++ b) s s' := by
  obtain ⟨pre, mid, post, e, h1, h2, h3⟩ := c
  exact ⟨pre, mid, post ++ b, by rw [e]; simp, h1, h2, h3⟩

theorem last_consecutive {a : Int} {h : List (Step V M)} {s s' : Step V M} (hs : (ongoing a h).getLast? = some s)
    (hs' : s'.agent = a) (b : List (Step V M)) : Consecutive (h ++ s' :: b) s s' := by
  obtain ⟨pre, mid, e, hm⟩ := ongoing_last hs
  obtain ⟨_, h1, h2⟩ := ongoing_mem (List.mem_of_getLast? hs)
  refine ⟨pre, mid, b, by rw [e]; simp, h2, by rw [hs', h1], fun x hx => ?_⟩
  rw [h1]
  exact hm x hx

theorem ongoing_consecutive {a : Int} {h : List (Step V M)} {i : Nat} {s s' : Step V M}
    (hs : (ongoing a h)[i]? = some s) (hs' : (ongoing a h)[i + 1]? = some s') : Consecutive h s s' := by
  induction h using snocInduction with
  | nil => simp [ongoing] at hs
  | snoc h x ih =>
    by_cases hx : x.agent = a
    · cases he : x.ends with
      | true => rw [ongoing_snoc_ends h hx he] at hs; simp at hs
      | false =>
        rw [ongoing_snoc h hx he] at hs hs'
        have hl := (List.getElem?_eq_some_iff.1 hs').1
        simp only [List.length_append, List.length_singleton] at hl
        rw [List.getElem?_append_left (by omega)] at hs
        by_cases hlt : i + 1 < (ongoing a h).length
        · rw [List.getElem?_append_left hlt] at hs'
          exact (ih hs hs').extend _
        · have hi : (ongoing a h).length = i + 1 := by omega
          rw [List.getElem?_append_right (by omega), hi] at hs'
          simp only [Nat.sub_self, List.getElem?_cons_zero, Option.some.injEq] at hs'
          subst hs'
          refine last_consecutive ?_ hx []
          rw [List.getLast?_eq_getElem?, hi]
          exact hs
    · rw [ongoing_snoc_other h hx] at hs hs'
      exact (ih hs hs').extend _

theorem ongoing_initial {a : Int} {h : List (Step V M)} (hst : ∀ pre s post, h = pre ++ s :: post →
      (s.obs.state = .initial ↔ ongoing s.agent pre = [] ∧ s.ends = false)) {i : Nat} {s : Step V M}
    (hs : (ongoing a h)[i]? = some s) : s.obs.state = .initial ↔ i = 0 := by
  induction h using snocInduction with
  | nil => simp [ongoing] at hs
  | snoc h x ih =>
    have hst' : ∀ pre s post, h = pre ++ s :: post →
        (s.obs.state = .initial ↔ ongoing s.agent pre = [] ∧ s.ends = false) :=
      fun pre s post e => hst pre s (post ++ [x]) (by rw [e]; simp)
    by_cases hx : x.agent = a
    · cases he : x.ends with
      | true => rw [ongoing_snoc_ends h hx he] at hs; simp at hs
      | false =>
        rw [ongoing_snoc h hx he] at hs
        have hl := (List.getElem?_eq_some_iff.1 hs).1
        simp only [List.length_append, List.length_singleton] at hl
        by_cases hlt : i < (ongoing a h).length
        · rw [List.getElem?_append_left hlt] at hs
          exact ih hst' hs
        · have hi : (ongoing a h).length = i := by omega
          rw [List.getElem?_append_right (by omega), hi] at hs
          simp only [Nat.sub_self, List.getElem?_cons_zero, Option.some.injEq] at hs
          subst hs
          rw [hst h x [] rfl, hx, ← hi, List.length_eq_zero_iff]
          simp [he]
    · rw [ongoing_snoc_other h hx] at hs
      exact ih hst' hs

/-- The steps of an ended episode. -/
structure Ended (keys : List String) (h : List (Step V M)) (a : Int) (ss : List (Step V M)) : Prop where
  long : 2 ≤ ss.length
  agent : ∀ s ∈ ss, s.agent = a
  step : ∀ s ∈ ss, EnvStep keys s
  first : ∀ (i : Nat) s, ss[i]? = some s → (s.obs.state = .initial ↔ i = 0)
  last : ∀ (i : Nat) s, ss[i]? = some s → (s.ends = true ↔ i + 1 = ss.length)
  next : ∀ (i : Nat) s s', ss[i]? = some s → ss[i + 1]? = some s' → Consecutive h s s'

theorem delivered_ended {cfg : ProxyCfg V} {keys : List String} {h : List (Step V M)} (hE : Environment keys h) {a : Int}
    {ss : List (Step V M)} (hd : (a, ss) ∈ delivered cfg [] h) : Ended keys h a ss ∧ longEnough cfg ss = true := by
  obtain ⟨pre, s, post, e1, e2, e3, e4, e5, e6⟩ := delivered_own_steps cfg h hd
  refine ⟨?_, e6⟩
  subst e4
  have hpos := List.length_pos_iff.2 e5
  have hmem : ∀ x ∈ ongoing a pre ++ [s], x ∈ h ∧ x.agent = a := by
    intro x hx
    rcases List.mem_append.1 hx with hx | hx
    · obtain ⟨h1, h2, _⟩ := ongoing_mem hx
      exact ⟨by rw [e1]; simp [h1], h2⟩
    · rw [List.mem_singleton.1 hx]
      exact ⟨by rw [e1]; simp, e2⟩
  constructor
  · simp only [List.length_append, List.length_singleton]; omega
  · exact fun x hx => (hmem x hx).2
  · exact fun x hx => hE.steps x (hmem x hx).1
  · intro i x hx
    have hl := (List.getElem?_eq_some_iff.1 hx).1
    simp only [List.length_append, List.length_singleton] at hl
    by_cases hlt : i < (ongoing a pre).length
    · rw [List.getElem?_append_left hlt] at hx
      exact ongoing_initial (fun p x q e => hE.starts p x (q ++ s :: post) (by rw [e1, e]; simp)) hx
    · rw [List.getElem?_append_right (by omega), show i - (ongoing a pre).length = 0 by omega] at hx
      simp only [List.getElem?_cons_zero, Option.some.injEq] at hx
      subst hx
      constructor
      · intro hi; simp [Step.ends, hi] at e3
      · omega
  · intro i x hx
    have hl := (List.getElem?_eq_some_iff.1 hx).1
    simp only [List.length_append, List.length_singleton] at hl ⊢
    by_cases hlt : i < (ongoing a pre).length
    · rw [List.getElem?_append_left hlt] at hx
      rw [(ongoing_mem (List.mem_of_getElem? hx)).2.2]
      simp; omega
    · rw [List.getElem?_append_right (by omega), show i - (ongoing a pre).length = 0 by omega] at hx
      simp only [List.getElem?_cons_zero, Option.some.injEq] at hx
      subst hx
      simp [e3]; omega
  · intro i x x' hx hx'
    have hl := (List.getElem?_eq_some_iff.1 hx').1
    simp only [List.length_append, List.length_singleton] at hl
    rw [List.getElem?_append_left (by omega)] at hx
    by_cases hlt : i + 1 < (ongoing a pre).length
    · rw [List.getElem?_append_left hlt] at hx'
      rw [e1]
      exact (ongoing_consecutive hx hx').extend _
    · have hi : (ongoing a pre).length = i + 1 := by omega
      rw [List.getElem?_append_right (by omega), hi] at hx'
      simp only [Nat.sub_self, List.getElem?_cons_zero, Option.some.injEq] at hx'
      subst hx'
      rw [e1]
      refine last_consecutive ?_ e2 post
      rw [List.getLast?_eq_getElem?, hi]
      exact hx

/-! ## Columns of an ended episode -/

theorem filterMap_total {α : Type u} {β : Type v} {f : α → Option β} {l : List α} (h : ∀ x ∈ l, (f x).isSome = true) :
    (l.filterMap f).length = l.length ∧ ∀ i : Nat, (l.filterMap f)[i]? = l[i]?.bind f := by
  induction l with
  | nil => simp
  | cons x l ih =>
    obtain ⟨y, hy⟩ := Option.isSome_iff_exists.1 (h x (by simp))
    obtain ⟨h1, h2⟩ := ih fun x hx => h x (by simp [hx])
    rw [List.filterMap_cons_some hy]
    refine ⟨by simp [h1], fun i => ?_⟩
    cases i with
    | zero => simp [hy]
    | succ i => simpa using h2 i

/-- The action that was the answer to a step. -/
def _root_.Verif.Spec.Step.action (s : Step V M) : Option V := s.resp.bind fun r => r.listData.get? "actions"

theorem contributes_env {keys : List String} {s : Step V M} (hs : EnvStep keys s) (hkeys : "actions" ∉ keys)
    (ut : Bool) (fl : Bool → V) (k : String) :
    contributes ut fl k s =
      if s.ends = true ∧ ut = true ∧ k = "terminal" then some (fl (s.obs.state = .interrupted))
      else if k = "actions" then (if s.ends then none else s.action)
      else if k = "rewards" ∧ s.obs.state ≠ .initial then s.obs.rewards.get? "reward"
      else s.obs.arrays.get? k := by
  have hact : s.obs.arrays.get? "actions" = none := Dict.get?_none_iff.2 fun h => hkeys ((hs.features _).1 h)
  unfold contributes Step.action
  cases he : s.ends with
  | true =>
    have hni : s.obs.state ≠ .initial := by intro h; simp [Step.ends, h] at he
    by_cases ht : ut = true ∧ k = "terminal"
    · simp [ht.1, ht.2]
    · have : (ut && decide (k = "terminal")) = false := by simpa using ht
      simp only [this, if_true, Bool.false_eq_true, if_false, true_and, ht]
      by_cases hk : k = "actions"
      · subst hk; simp [hact]
      · by_cases hr : k = "rewards" <;> simp [hk, hr, hni]
  | false =>
    obtain ⟨r, v, h1, h2, h3⟩ := hs.action he
    simp only [h1, h2, h3, Dict.get?, Option.bind_some, Bool.false_eq_true, if_false, false_and]
    by_cases hk : k = "actions"
    · subst hk; simp
    · rw [if_neg (Ne.symm hk)]
      simp only [hk, if_false]
      by_cases hi : s.obs.state = .initial
      · simp [hi]
      · have : s.obs.state = .running := by
          cases hs : s.obs.state <;> simp_all [Step.ends]
        by_cases hr : k = "rewards" <;> simp [hr, this]

section

variable {keys : List String} {h : List (Step V M)} {a : Int} {ss : List (Step V M)} (he : Ended keys h a ss)
  (hact : "actions" ∉ keys)

include he hact

theorem column_feature {k : String} (hk : k ∈ keys) (hrew : "rewards" ∉ keys) {ut : Bool}
    (ht : ut = true → "terminal" ∉ keys) (fl : Bool → V) :
    (column ut fl k ss).length = ss.length ∧
      ∀ i : Nat, (column ut fl k ss)[i]? = ss[i]?.bind fun s => s.obs.arrays.get? k := by
  have h1 : ∀ s ∈ ss, contributes ut fl k s = s.obs.arrays.get? k := by
    intro s hs
    rw [contributes_env (he.step s hs) hact, if_neg, if_neg, if_neg]
    · rintro ⟨rfl, _⟩; exact hrew hk
    · rintro rfl; exact hact hk
    · rintro ⟨_, hu, rfl⟩; exact ht hu hk
  have h2 : column ut fl k ss = ss.filterMap fun s => s.obs.arrays.get? k := List.filterMap_congr h1
  rw [h2]
  refine filterMap_total fun s hs => ?_
  obtain ⟨v, hv⟩ := Dict.get?_isSome_of_mem (((he.step s hs).features k).2 hk)
  simp [hv]

theorem ended_split : ∃ body last, ss = body ++ [last] ∧ last.ends = true ∧ (∀ s ∈ body, s.ends = false) ∧
    ∃ x rest, ss = x :: rest ∧ x.obs.state = .initial ∧ x.ends = false ∧ ∀ s ∈ rest, s.obs.state ≠ .initial := by
  have hl := he.long
  have hne : ss ≠ [] := by intro h; simp [h] at hl
  refine ⟨ss.dropLast, ss.getLast hne, (List.dropLast_append_getLast hne).symm, ?_, ?_, ?_⟩
  · have : ss[ss.length - 1]? = some (ss.getLast hne) := by
      rw [← List.getLast?_eq_getElem?, List.getLast?_eq_getLast_of_ne_nil hne]
    exact (he.last _ _ this).2 (by omega)
  · intro s hs
    obtain ⟨i, hi, rfl⟩ := List.mem_iff_getElem.1 hs
    simp only [List.length_dropLast] at hi
    rw [List.getElem_dropLast]
    have := he.last i ss[i] (List.getElem?_eq_getElem (by omega))
    cases h : ss[i].ends with
    | false => rfl
    | true => have := this.1 h; omega
  · cases ss with
    | nil => exact absurd rfl hne
    | cons x rest =>
      refine ⟨x, rest, rfl, (he.first 0 x rfl).2 rfl, ?_, ?_⟩
      · have := he.last 0 x rfl
        cases h : x.ends with
        | false => rfl
        | true => have := this.1 h; omega
      · intro s hs
        obtain ⟨i, hi, rfl⟩ := List.mem_iff_getElem.1 hs
        have := he.first (i + 1) rest[i] (by simp)
        intro h
        have := this.1 h
        omega

theorem column_actions (ut : Bool) (fl : Bool → V) :
    (column ut fl "actions" ss).length + 1 = ss.length ∧
      ∀ i : Nat, i + 1 < ss.length → (column ut fl "actions" ss)[i]? = ss[i]?.bind Step.action := by
  obtain ⟨body, last, rfl, h1, h2, -⟩ := ended_split he hact
  have hb : ∀ s ∈ body, contributes ut fl "actions" s = s.action := by
    intro s hs
    rw [contributes_env (he.step s (by simp [hs])) hact]
    simp [h2 s hs]
  have hlast : contributes ut fl "actions" last = none := by
    rw [contributes_env (he.step last (by simp)) hact]
    simp [h1]
  have hcol : column ut fl "actions" (body ++ [last]) = body.filterMap Step.action := by
    rw [column, List.filterMap_append, List.filterMap_congr hb]
    simp [hlast]
  obtain ⟨h3, h4⟩ := filterMap_total (f := Step.action) (l := body) fun s hs => by
    obtain ⟨r, v, e1, e2, -⟩ := (he.step s (by simp [hs])).action (h2 s hs)
    simp [Step.action, e1, e2, Dict.get?]
  rw [hcol]
  refine ⟨by simp [h3], fun i hi => ?_⟩
  simp only [List.length_append, List.length_singleton] at hi
  rw [h4, List.getElem?_append_left (by omega)]

theorem column_rewards (hrew : "rewards" ∉ keys) (ut : Bool) (fl : Bool → V) :
    (column ut fl "rewards" ss).length + 1 = ss.length ∧
      ∀ i : Nat, (column ut fl "rewards" ss)[i]? = ss[i + 1]?.bind fun s => s.obs.rewards.get? "reward" := by
  obtain ⟨-, -, -, -, -, x, rest, rfl, h1, h2, h3⟩ := ended_split he hact
  have hx : contributes ut fl "rewards" x = none := by
    rw [contributes_env (he.step x (by simp)) hact]
    simp only [h2, Bool.false_eq_true, false_and, if_false, h1, ne_eq, not_true_eq_false, and_false]
    rw [if_neg (by decide)]
    exact Dict.get?_none_iff.2 fun h => hrew (((he.step x (by simp)).features _).1 h)
  have hb : ∀ s ∈ rest, contributes ut fl "rewards" s = s.obs.rewards.get? "reward" := by
    intro s hs
    rw [contributes_env (he.step s (by simp [hs])) hact]
    simp [h3 s hs]
  have hcol : column ut fl "rewards" (x :: rest) = rest.filterMap fun s => s.obs.rewards.get? "reward" := by
    rw [column, List.filterMap_cons_none hx, List.filterMap_congr hb]
  obtain ⟨h4, h5⟩ := filterMap_total (f := fun s : Step V M => s.obs.rewards.get? "reward") (l := rest) fun s hs => by
    obtain ⟨v, hv⟩ := Dict.get?_isSome_of_mem ((he.step s (by simp [hs])).reward (h3 s hs))
    simp [hv]
  rw [hcol]
  refine ⟨by simp [h4], fun i => ?_⟩
  rw [h5]
  simp

theorem column_terminal (fl : Bool → V) (ht : "terminal" ∉ keys) :
    ∃ last, ss.getLast? = some last ∧ column true fl "terminal" ss = [fl (last.obs.state = .interrupted)] := by
  obtain ⟨body, last, rfl, h1, h2, -⟩ := ended_split he hact
  refine ⟨last, by simp, ?_⟩
  have hb : ∀ s ∈ body, contributes true fl "terminal" s = none := by
    intro s hs
    rw [contributes_env (he.step s (by simp [hs])) hact, h2 s hs]
    simp only [Bool.false_eq_true, false_and, if_false]
    rw [if_neg (by decide), if_neg (by simp)]
    exact Dict.get?_none_iff.2 fun h => ht (((he.step s (by simp [hs])).features _).1 h)
  have hlast : contributes true fl "terminal" last = some (fl (last.obs.state = .interrupted)) := by
    rw [contributes_env (he.step last (by simp)) hact]
    simp [h1]
  rw [column, List.filterMap_append, List.filterMap_eq_nil_iff.2 hb]
  simp [hlast]

theorem column_other {k : String} {ut : Bool} {fl : Bool → V} (hk : column ut fl k ss ≠ []) :
    k ∈ keys ∨ k = "actions" ∨ k = "rewards" ∨ (ut = true ∧ k = "terminal") := by
  by_contra hno
  push Not at hno
  refine hk (List.filterMap_eq_nil_iff.2 fun s hs => ?_)
  rw [contributes_env (he.step s hs) hact, if_neg (fun h => hno.2.2.2 h.2.1 h.2.2), if_neg hno.2.1,
    if_neg (fun h => hno.2.2.1 h.1)]
  exact Dict.get?_none_iff.2 fun h => hno.1 (((he.step s hs).features _).1 h)

end

/-! ## The table behind the proxy -/

theorem rowsOf_touch (ep : Episode V) (k : String) : rowsOf ep k = (ep.touch k).2 := by
  unfold rowsOf Episode.touch
  cases Dict.get? ep k <;> rfl

/-- The episode as an entry of the memory. -/
def asEntry (cfg : ProxyCfg V) (x : Int × List (Step V M)) : Entry V :=
  ⟨Table.wrapId x.1, (column cfg.useTerminal cfg.float cfg.lengthKey x.2).length,
    fun k => column cfg.useTerminal cfg.float k x.2⟩

theorem entryOf_shows {cfg : ProxyCfg V} {ep : Episode V} {ss : List (Step V M)} (hs : Shows cfg ep ss) (a : Int) :
    entryOf (Table.wrapId a) (rowsOf ep cfg.lengthKey).length ep = asEntry cfg (a, ss) := by
  unfold entryOf asEntry
  have : rowsOf ep = fun k => column cfg.useTerminal cfg.float k ss := by
    funext k
    rw [rowsOf_touch, hs.cols]
  rw [this]

/-- What the events do to the memory: the episodes that end in them are added, and it is resized. -/
def eventActs (cfg : ProxyCfg V) : List (Step V M) → List (Event V M) → List (Act V)
  | _, [] => []
  | past, .add c _ :: es => (delivered cfg past c.steps).map (fun x => .add (asEntry cfg x)) ++ eventActs cfg (past ++ c.steps) es
  | past, .resize n :: es => .resize n :: eventActs cfg past es
  | past, .sample .. :: es => eventActs cfg past es

theorem eventActs_append (cfg : ProxyCfg V) (past : List (Step V M)) (a b : List (Event V M)) :
    eventActs cfg past (a ++ b) = eventActs cfg past a ++ eventActs cfg (past ++ a.flatMap Event.steps) b := by
  induction a generalizing past with
  | nil => simp [eventActs]
  | cons e a ih => cases e <;> simp [eventActs, ih, Event.steps, List.append_assoc]

theorem added_eventActs (cfg : ProxyCfg V) (past : List (Step V M)) (es : List (Event V M)) :
    added (eventActs cfg past es) = (delivered cfg past (es.flatMap Event.steps)).map (asEntry cfg) := by
  induction es generalizing past with
  | nil => rfl
  | cons e es ih =>
    cases e with
    | add c draws =>
      simp only [eventActs, List.flatMap_cons, Event.steps, delivered_append, List.map_append, ← ih]
      simp only [added, List.filterMap_append]
      congr 1
      rw [List.filterMap_map, ← List.filterMap_eq_map]
      rfl
    | resize n => simpa [eventActs, added, Event.steps] using ih past
    | sample => simpa [eventActs, added, Event.steps] using ih past

theorem added_append (as bs : List (Act V)) : added (as ++ bs) = added as ++ added bs := by
  simp [added, List.filterMap_append]

section

variable {keys : List String} {nstep ut : Bool} {cfg : ProxyCfg V} {maxlen : Int} {t0 : Table V}

theorem env_seqOk (hnames : ((Builder.columns nstep ut keys).map Column.name).Nodup) (hut : cfg.useTerminal = ut)
    (hlk : cfg.lengthKey = "actions") {ops : List (Op V)} {t : Table V}
    (hc : Created (Builder.columns nstep ut keys) maxlen "actions" t0) (hr : Run t0 ops t)
    {h : List (Step V M)} {a : Int} {ss : List (Step V M)} (he : Ended keys h a ss) {ep : Episode V}
    (hs : Shows cfg ep ss) : SeqOk t ep := by
  obtain ⟨q, hq⟩ := run_hist hc hr
  have hcols := builder_columns_eq hnames hq
  have hnd := hnames
  rw [builder_names] at hnd
  have hkk : ∀ k ∈ keys, k ∈ keys.flatMap fun k => [k, "next_" ++ k] :=
    fun k hk => List.mem_flatMap.2 ⟨k, hk, by simp⟩
  have hact : "actions" ∉ keys := fun hm => by
    have := (List.nodup_append.1 (List.nodup_append.1 hnd).1).2.2 "actions" (by simp) _ (hkk _ hm)
    exact this rfl
  have hrew : "rewards" ∉ keys := fun hm => by
    have := (List.nodup_append.1 (List.nodup_append.1 hnd).1).2.2 "rewards" (by simp) _ (hkk _ hm)
    exact this rfl
  have hterm : ut = true → "terminal" ∉ keys := fun hu hm => by
    have := (List.nodup_append.1 hnd).2.2 "terminal" (by simp [hkk _ hm]) "terminal" (by simp [hu])
    exact this rfl
  have hlong := he.long
  refine ⟨hs.nodup, fun k hk => ?_, fun p hp hkind => ?_⟩
  · have hk' : k ∈ keys ∨ k = "actions" ∨ k = "rewards" ∨ (ut = true ∧ k = "terminal") := by
      rcases hs.keys k hk with h1 | h1
      · exact Or.inr (Or.inl (h1.trans hlk))
      · rw [hut] at h1; exact column_other he hact h1
    rw [hcols]
    simp only [Dict.keys, List.map_map, Function.comp_def]
    show k ∈ (Builder.columns nstep ut keys).map Column.name
    rw [builder_names]
    rcases hk' with h1 | h1 | h1 | ⟨h1, h2⟩
    · simp only [List.mem_append]; exact Or.inl (Or.inr (hkk k h1))
    · simp [h1]
    · simp [h1]
    · simp [h1, h2]
  · have hne : column cfg.useTerminal cfg.float p.1 ss ≠ [] := by
      rw [hut]
      rw [hcols] at hp
      obtain ⟨c, hc1, rfl⟩ := List.mem_map.1 hp
      unfold Builder.columns at hc1
      simp only [List.mem_append, List.mem_cons, List.not_mem_nil, or_false, List.mem_flatMap, Builder.obsColumns] at hc1
      rcases hc1 with ((rfl | rfl | rfl | rfl) | ⟨k, hk, rfl | rfl⟩) | hc1
      · intro h0
        have := (column_actions he hact ut cfg.float).1
        rw [h0] at this; simp at this; omega
      · simp at hkind
      · simp at hkind
      · intro h0
        have := (column_rewards he hact hrew ut cfg.float).1
        rw [h0] at this; simp at this; omega
      · intro h0
        have := (column_feature he hact hk hrew hterm cfg.float).1
        rw [h0] at this; simp at this; omega
      · simp at hkind
      · cases ut with
        | false => simp at hc1
        | true =>
          simp at hc1
          subst hc1
          obtain ⟨_, _, h0⟩ := column_terminal he hact cfg.float (hterm rfl)
          simp only [h0]
          simp
    by_contra hno
    refine hne ?_
    rw [← hs.cols]
    unfold Episode.touch
    rw [Dict.get?_none_iff.2 hno]

theorem stored_ids {columns : List Column} {lk : String} {ops : List (Op V)} {t : Table V}
    (hc : Created columns maxlen lk t0) (hr : Run t0 ops t) {id : Int} (hid : id ∈ t.lengths.keys) :
    id ∈ (added (acts lk ops)).map Entry.id := by
  obtain ⟨q, hq⟩ := run_hist hc hr
  rw [hq.inv.lengths] at hid
  have h1 : id ∈ q.map Entry.id := by
    simpa [Dict.keys, lensOf] using hid
  exact (hq.sub.map Entry.id).subset h1

theorem flush_run (hnames : ((Builder.columns nstep ut keys).map Column.name).Nodup) (hut : cfg.useTerminal = ut)
    (hlk : cfg.lengthKey = "actions") (hc : Created (Builder.columns nstep ut keys) maxlen "actions" t0)
    {h : List (Step V M)} (draws : Int → List Nat) (done : Dict Int (Episode V)) (want : List (Int × List (Step V M)))
    (hm : List.Forall₂ (fun got want => got.1 = want.1 ∧ Shows cfg got.2 want.2) done want)
    (hended : ∀ x ∈ want, Ended keys h x.1 x.2) {ops : List (Op V)} {p p' : Proxy V (Table V)} (hr : Run t0 ops p.table)
    (hfresh : ((added (acts "actions" ops)).map Entry.id ++ want.map fun x => Table.wrapId x.1).Nodup)
    (hf : Proxy.flush (fun a ep t => Table.addSequence (draws a) a ep t) done p = (p', .ok ())) :
    p'.store = p.store ∧ ∃ ops', Run t0 ops' p'.table ∧
      acts "actions" ops' = acts "actions" ops ++ want.map (fun x => .add (asEntry cfg x)) := by
  unfold Proxy.flush at hf
  induction hm generalizing ops p with
  | nil =>
    simp only [Res.forEach] at hf
    injection hf with hf _
    subst hf
    exact ⟨rfl, ops, hr, by simp⟩
  | @cons g w gs ws hgw _ ih =>
    obtain ⟨ga, ep⟩ := g
    obtain ⟨wa, ss⟩ := w
    obtain ⟨rfl, hsh⟩ : ga = wa ∧ Shows cfg ep ss := hgw
    simp only [Res.forEach] at hf
    obtain ⟨p1, _, h1, h2⟩ := Res.andThen_eq_ok.1 hf
    have hadd : ∃ t1, Table.addSequence (draws ga) ga ep p.table = (t1, .ok ()) ∧ p1 = { p with table := t1 } := by
      unfold Res.lift at h1
      injection h1 with h1 h1'
      exact ⟨(Table.addSequence (draws ga) ga ep p.table).1, Prod.ext rfl h1', h1.symm⟩
    obtain ⟨t1, h3, rfl⟩ := hadd
    have hE := hended (ga, ss) (by simp)
    have hnot : Table.wrapId ga ∉ p.table.lengths.keys := by
      intro hid
      have := stored_ids hc hr hid
      exact (List.nodup_append.1 hfresh).2.2 _ this _ (by simp) rfl
    have hr1 := Run.add hr (env_seqOk hnames hut hlk hc hr hE hsh) hnot h3
    have hacts : acts "actions" (ops ++ [.add ga ep (draws ga)])
        = acts "actions" ops ++ [.add (asEntry cfg (ga, ss))] := by
      rw [acts_append, toAct_add, ← hlk, entryOf_shows hsh]
    obtain ⟨i1, ops', i2, i3⟩ := ih (fun x hx => hended x (by simp [hx])) (p := { p with table := t1 }) hr1 (by
      rw [hacts, added_append]
      simpa [added, asEntry, List.append_assoc] using hfresh) h2
    refine ⟨i1, ops', i2, ?_⟩
    rw [i3, hacts]
    simp

/-- The calls that reach the table of a proxy in an environment are well formed adds of the delivered episodes. -/
theorem life_run (hnames : ((Builder.columns nstep ut keys).map Column.name).Nodup) (hut : cfg.useTerminal = ut)
    (hlk : cfg.lengthKey = "actions") (hc : Created (Builder.columns nstep ut keys) maxlen "actions" t0)
    {es : List (Event V M)} {p : Proxy V (Table V)} (hl : Life cfg (Proxy.new t0) es p)
    (hE : Environment keys (es.flatMap Event.steps))
    (hids : ((delivered cfg [] (es.flatMap Event.steps)).map fun x => Table.wrapId x.1).Nodup) :
    ProxyInv cfg p (es.flatMap Event.steps) ∧ ∃ ops, Run t0 ops p.table ∧
      acts "actions" ops = eventActs cfg [] es := by
  induction hl with
  | nil => exact ⟨inv_new cfg t0, [], Run.nil, rfl⟩
  | @add es p p' c draws hl hw hadd ih =>
    rw [List.flatMap_append] at hE hids ⊢
    simp only [List.flatMap_cons, List.flatMap_nil, List.append_nil, Event.steps] at hE hids ⊢
    rw [delivered_append, List.nil_append, List.map_append] at hids
    obtain ⟨hinv, ops, hr, hacts⟩ := ih hE.prefix (List.nodup_append.1 hids).1
    unfold Proxy.add at hadd
    rcases hf : Res.forEach c.observations (Proxy.observe cfg c.responses) (p, []) with ⟨⟨p1, done⟩, x⟩
    rw [hf] at hadd
    cases x with
    | error e => simp at hadd
    | ok u =>
      simp only at hadd
      obtain ⟨i, tt, new, e, _, f⟩ := observeAll_ok hw c.observations (fun _ h => h) hw.agents hinv (by simp) hf
      rw [List.nil_append] at e
      subst e
      obtain ⟨j1, ops', j2, j3⟩ := flush_run hnames hut hlk hc (h := es.flatMap Event.steps ++ c.steps) draws done _ f
        (fun x hx => (delivered_ended hE (by
          rw [delivered_append]
          exact List.mem_append_right _ (by simpa [Call.steps] using hx))).1) (p := p1) (by rw [tt]; exact hr)
        (by
          rw [hacts, added_eventActs, List.map_map]
          exact hids) hadd
      refine ⟨⟨by rw [j1]; exact i.nodup, by rw [j1]; exact i.none, by rw [j1]; exact i.some⟩, ops', j2, ?_⟩
      rw [j3, hacts, eventActs_append]
      simp [eventActs, Call.steps]
  | @resize es p t' n hl hres ih =>
    rw [List.flatMap_append] at hE hids ⊢
    simp only [List.flatMap_cons, List.flatMap_nil, List.append_nil, Event.steps] at hE hids ⊢
    obtain ⟨hinv, ops, hr, hacts⟩ := ih hE hids
    refine ⟨⟨hinv.nodup, hinv.none, hinv.some⟩, _, Run.resize hr hres, ?_⟩
    rw [acts_append, hacts, eventActs_append]
    simp [eventActs, Op.toAct]
  | @sample es p t' count n c r junk x hl hs hx ih =>
    rw [List.flatMap_append] at hE hids ⊢
    simp only [List.flatMap_cons, List.flatMap_nil, List.append_nil, Event.steps] at hE hids ⊢
    obtain ⟨hinv, ops, hr, hacts⟩ := ih hE hids
    refine ⟨⟨hinv.nodup, hinv.none, hinv.some⟩, _, Run.sample hr hs hx, ?_⟩
    rw [acts_append, hacts, eventActs_append]
    simp [eventActs, Op.toAct]

theorem builder_reserved (hnames : ((Builder.columns nstep ut keys).map Column.name).Nodup) :
    "actions" ∉ keys ∧ "rewards" ∉ keys ∧ (ut = true → "terminal" ∉ keys) := by
  rw [builder_names] at hnames
  have hkk : ∀ k ∈ keys, k ∈ keys.flatMap fun k => [k, "next_" ++ k] :=
    fun k hk => List.mem_flatMap.2 ⟨k, hk, by simp⟩
  refine ⟨fun hm => ?_, fun hm => ?_, fun hu hm => ?_⟩
  · exact (List.nodup_append.1 (List.nodup_append.1 hnames).1).2.2 "actions" (by simp) _ (hkk _ hm) rfl
  · exact (List.nodup_append.1 (List.nodup_append.1 hnames).1).2.2 "rewards" (by simp) _ (hkk _ hm) rfl
  · exact (List.nodup_append.1 hnames).2.2 "terminal" (by simp [hkk _ hm]) "terminal" (by simp [hu]) rfl

theorem ended_episodeOk (hnames : ((Builder.columns nstep ut keys).map Column.name).Nodup) (hut : cfg.useTerminal = ut)
    (hlk : cfg.lengthKey = "actions") {h : List (Step V M)} {x : Int × List (Step V M)} (he : Ended keys h x.1 x.2) :
    EpisodeOk (Builder.columns nstep ut keys) (asEntry cfg x) := by
  obtain ⟨hact, hrew, hterm⟩ := builder_reserved hnames
  have h1 := (column_actions he hact cfg.useTerminal cfg.float).1
  have h2 := (column_rewards he hact hrew cfg.useTerminal cfg.float).1
  intro c hc1
  unfold Builder.columns at hc1
  simp only [List.mem_append, List.mem_cons, List.not_mem_nil, or_false, List.mem_flatMap, Builder.obsColumns] at hc1
  rcases hc1 with ((rfl | rfl | rfl | rfl) | ⟨k, hk, rfl | rfl⟩) | hc1
  · simp [asEntry, hlk]
  · trivial
  · trivial
  · simp only [asEntry, hlk]; omega
  · have h3 := (column_feature he hact hk hrew (ut := cfg.useTerminal) (by rw [hut]; exact hterm) cfg.float).1
    simp only [asEntry, hlk]; omega
  · have h3 := (column_feature he hact hk hrew (ut := cfg.useTerminal) (by rw [hut]; exact hterm) cfg.float).1
    cases nstep <;> simp only [asEntry, hlk, Bool.false_eq_true, if_true, if_false] <;> omega
  · cases ut with
    | false => simp at hc1
    | true =>
      simp at hc1
      subst hc1
      obtain ⟨_, _, h0⟩ := column_terminal he hact cfg.float (hterm rfl)
      simp [asEntry, hut, h0]

/-- What a batch of the builder's table shows, after the adaptors. -/
theorem adapted_columns (hnames : ((Builder.columns nstep ut keys).map Column.name).Nodup) {n : Nat} {one : V → Bool}
    {out : Dict String (List (Cell V))} (hkeys : out.keys = (Builder.columns nstep ut keys).map Column.name) {b : Batch V}
    (hb : adapt n (Builder.adaptors one ut keys) (out.map fun p => (p.1, .col p.2)) = .ok b) :
    ∃ o x, b.get? "observation" = some (.obs o) ∧ b.get? "next_observation" = some (.obs x) ∧ o.keys = keys ∧
      x.keys = keys ∧ (∀ k ∈ keys, o.get? k = out.get? k ∧ x.get? k = out.get? ("next_" ++ k)) ∧
      ∀ name ∈ ["actions", "dones", "masks", "rewards"], b.get? name = (out.get? name).map .col := by
  have hget : ∀ name, Dict.get? (out.map fun p => (p.1, Out.col p.2)) name = (out.get? name).map .col :=
    fun name => get?_map_snd out (fun _ rows => Out.col rows) name
  have hbk : (Dict.keys (out.map fun p => (p.1, Out.col p.2))) = out.keys := by
    simp [Dict.keys, Function.comp_def]
  have hnd := hnames
  rw [builder_names, List.nodup_append] at hnd
  obtain ⟨hnd1, _, _⟩ := hnd
  have hnd3 := List.nodup_append.1 hnd1
  have hknd : keys.Nodup := (sublist_flatMap_pair keys ("next_" ++ ·)).nodup hnd3.2.1
  have hhas : ∀ name, name ∈ (Builder.columns nstep ut keys).map Column.name →
      ∃ rows, Dict.get? (out.map fun p => (p.1, Out.col p.2)) name = some (.col rows) := by
    intro name hm
    rw [← hkeys] at hm
    obtain ⟨v, hv⟩ := Dict.get?_isSome_of_mem hm
    exact ⟨v, by rw [hget, hv]; rfl⟩
  obtain ⟨rb, o, x, d1, d2, d3, d4, d5, d6, d7⟩ := C72_dict_obs (b := out.map fun p => (p.1, Out.col p.2))
    (by rw [hbk, hkeys]; exact hnames) (keyMap := keys.map fun k => (k, k))
    (by rw [List.flatMap_map]; exact hnd3.2.1)
    (by
      intro p hp
      obtain ⟨k, hk, rfl⟩ := List.mem_map.1 hp
      have hm : k ∈ keys.flatMap (fun k => [k, "next_" ++ k]) := List.mem_flatMap.2 ⟨k, hk, by simp⟩
      have hm' : "next_" ++ k ∈ keys.flatMap (fun k => [k, "next_" ++ k]) := List.mem_flatMap.2 ⟨k, hk, by simp⟩
      refine ⟨hhas k ?_, hhas ("next_" ++ k) ?_⟩ <;> rw [builder_names] <;> simp only [List.mem_append]
      · exact Or.inl (Or.inr hm)
      · exact Or.inl (Or.inr hm'))
    (by
      rw [List.map_map]
      simpa [Function.comp_def] using hknd)
  have hk1 : (keys.map fun k => (k, k)).map Prod.snd = keys := by simp [Function.comp_def]
  have hrest : ∀ name ∈ ["actions", "dones", "masks", "rewards"], rb.get? name = (out.get? name).map .col := by
    intro name hname
    rw [d7 name (by rintro rfl; simp at hname) (by rintro rfl; simp at hname), if_neg, hget]
    rintro ⟨p, hp, hor⟩
    obtain ⟨k, hk, rfl⟩ := List.mem_map.1 hp
    have hm : name ∈ keys.flatMap fun k => [k, "next_" ++ k] :=
      List.mem_flatMap.2 ⟨k, hk, by rcases hor with rfl | rfl <;> simp⟩
    exact hnd3.2.2 name hname name hm rfl
  have hbrb : b = rb ∨ ∃ col, b = rb.set "terminal" (.col col) := by
    cases ut with
    | false =>
      simp only [Builder.adaptors, adapt, Adaptor.apply, d1, bind, Except.bind, Bool.false_eq_true, if_false,
        Except.ok.injEq] at hb
      exact Or.inl hb.symm
    | true =>
      simp only [Builder.adaptors, adapt, Adaptor.apply, d1, bind, Except.bind, if_true, Adaptors.terminal] at hb
      right
      split at hb
      · simp at hb
      · rename_i bb hbb
        split at hbb
        · split at hbb
          · simp at hbb
          · split at hbb
            · simp at hbb
            · split at hbb
              · simp at hbb
              · split at hbb
                · simp at hbb
                · simp only [Except.ok.injEq] at hb hbb
                  exact ⟨_, by rw [← hb, ← hbb]⟩
        · simp at hbb
  have hbget : ∀ name, name ≠ "terminal" → b.get? name = rb.get? name := by
    intro name hne
    rcases hbrb with rfl | ⟨col, rfl⟩
    · rfl
    · exact Dict.get?_set_ne (Ne.symm hne)
  refine ⟨o, x, by rw [hbget _ (by decide), d2], by rw [hbget _ (by decide), d3], by rw [d4, hk1], by rw [d5, hk1],
    fun k hk => ?_, fun name hname => ?_⟩
  · obtain ⟨r1, r2, e1, e2, e3, e4⟩ := d6 (k, k) (List.mem_map.2 ⟨k, hk, rfl⟩)
    simp only at e1 e2 e3 e4
    rw [hget] at e1 e3
    cases h1 : out.get? k with
    | none => rw [h1] at e1; simp at e1
    | some c1 =>
      cases h2 : out.get? ("next_" ++ k) with
      | none => rw [h2] at e3; simp at e3
      | some c2 =>
        rw [h1] at e1; rw [h2] at e3
        simp only [Option.map_some, Option.some.injEq, Out.col.injEq] at e1 e3
        exact ⟨by rw [e2, e1], by rw [e4, e3]⟩
  · rw [hbget name (by rintro rfl; simp at hname), hrest name hname]

/-- The same, for a table to which some of the delivered episodes were added. -/
theorem run_transitions (hnames : ((Builder.columns false ut keys).map Column.name).Nodup)
    (hut : cfg.useTerminal = ut) (hlk : cfg.lengthKey = "actions")
    (hc : Created (Builder.columns false ut keys) maxlen "actions" t0) {ops : List (Op V)} {t : Table V} (hr : Run t0 ops t)
    {h : List (Step V M)} (hE : Environment keys h)
    (hadd : ∀ e ∈ added (acts "actions" ops), ∃ a ss, (a, ss) ∈ delivered cfg [] h ∧ e = asEntry cfg (a, ss)) {count n : Nat}
    (hn : 0 < n) (hmin : n = 1 ∨ ∃ m, cfg.minLength = some m ∧ (n : Int) ≤ m) {c r : Nat → Nat}
    {junk : String → Nat → Cell V} {one : V → Bool} {t' : Table V} {b : Batch V}
    (hs : Table.sampleAdapted (Builder.adaptors one ut keys) count n c r junk t = (t', .ok b)) :
    ∃ (o x : Dict String (List (Cell V))) (act rew dn mk : List (Cell V)),
      b.get? "observation" = some (.obs o) ∧ b.get? "next_observation" = some (.obs x) ∧
      b.get? "actions" = some (.col act) ∧ b.get? "rewards" = some (.col rew) ∧ b.get? "dones" = some (.col dn) ∧
      b.get? "masks" = some (.col mk) ∧ o.keys = keys ∧ x.keys = keys ∧
      act.length = count * n ∧ rew.length = count * n ∧ dn.length = count * n ∧ mk.length = count * n ∧
      ∀ k, k < count → ∃ run : List (Step V M), run.length = n + 1 ∧
        (∃ a ss, (a, ss) ∈ delivered cfg [] h ∧ run <:+: ss) ∧
        ∀ (i : Nat) s s', run[i]? = some s → run[i + 1]? = some s' → Consecutive h s s' ∧
          (∀ f ∈ keys, ∃ col col' v v', o.get? f = some col ∧ x.get? f = some col' ∧ col.length = count * n ∧
            col'.length = count * n ∧ s.obs.arrays.get? f = some v ∧ s'.obs.arrays.get? f = some v' ∧
            col[k * n + i]? = some (.row v) ∧ col'[k * n + i]? = some (.row v')) ∧
          (∃ v, s.action = some v ∧ act[k * n + i]? = some (.row v)) ∧
          (∃ v, s'.obs.rewards.get? "reward" = some v ∧ rew[k * n + i]? = some (.row v)) ∧
          dn[k * n + i]? = some (.bit s'.ends) ∧ mk[k * n + i]? = some (.bit !s'.ends) := by
  obtain ⟨hact, hrew, hterm⟩ := builder_reserved hnames
  have hterm' : cfg.useTerminal = true → "terminal" ∉ keys := by rw [hut]; exact hterm
  obtain ⟨q, hq⟩ := run_hist hc hr
  have hcols := builder_columns_eq hnames hq
  have hep : ∀ e ∈ added (acts "actions" ops), EpisodeOk (Builder.columns false ut keys) e := by
    intro e he
    obtain ⟨a, ss, h1, rfl⟩ := hadd e he
    exact ended_episodeOk hnames hut hlk (delivered_ended hE h1).1
  have hlong : ∀ x ∈ t.lengths, n ≤ x.2 := by
    intro x hx
    rw [hq.inv.lengths] at hx
    obtain ⟨e, he, rfl⟩ := List.mem_map.1 hx
    obtain ⟨a, ss, h1, rfl⟩ := hadd e (hq.sub.subset he)
    obtain ⟨h2, h3⟩ := delivered_ended hE h1
    have h4 := (column_actions h2 hact cfg.useTerminal cfg.float).1
    have h5 := h2.long
    simp only [asEntry, hlk]
    rcases hmin with rfl | ⟨m, hm, hle⟩
    · omega
    · unfold longEnough at h3
      rw [hm, hlk] at h3
      simp only [decide_eq_true_eq] at h3
      omega
  unfold Table.sampleAdapted at hs
  obtain ⟨t1, out, hs1, hs2⟩ := Res.andThen_eq_ok.1 hs
  injection hs2 with _ hb
  obtain ⟨_, _, _, hkeys, _⟩ := C09_windows_are_genuine hc hr (builder_targeted hnames) hep hn hlong hs1
  obtain ⟨ws, w1, w2, w3⟩ := batch_at hc hr (builder_targeted hnames) hep hn hlong hs1
  have hkeys' : out.keys = (Builder.columns false ut keys).map Column.name := by
    rw [hkeys, hcols]; simp [Dict.keys, Function.comp_def]
  obtain ⟨o, x, b1, b2, b3, b4, b5, b6⟩ := adapted_columns hnames hkeys' hb
  have hmem : ∀ c ∈ Builder.columns false ut keys, (c.name, c.kind) ∈ t.columns := by
    intro c hc1
    rw [hcols]
    exact List.mem_map.2 ⟨c, hc1, rfl⟩
  obtain ⟨act, a1, a2, a3⟩ := w3 "actions" .plain (hmem ⟨"actions", .plain⟩ (by simp [Builder.columns]))
  obtain ⟨rew, r1, r2, r3⟩ := w3 "rewards" .plain (hmem ⟨"rewards", .plain⟩ (by simp [Builder.columns]))
  obtain ⟨dn, d1, d2, d3⟩ := w3 "dones" (.virt .dones "actions") (hmem ⟨"dones", .virt .dones "actions"⟩ (by simp [Builder.columns]))
  obtain ⟨mk, m1, m2, m3⟩ := w3 "masks" (.virt .masks "actions") (hmem ⟨"masks", .virt .masks "actions"⟩ (by simp [Builder.columns]))
  simp only [rowsPerWindow] at a2 r2 d2 m2 a3 r3 d3 m3
  refine ⟨o, x, act, rew, dn, mk, b1, b2, by rw [b6 _ (by simp), a1]; rfl, by rw [b6 _ (by simp), r1]; rfl,
    by rw [b6 _ (by simp), d1]; rfl, by rw [b6 _ (by simp), m1]; rfl, b3, b4, a2, r2, d2, m2, fun k hk => ?_⟩
  obtain ⟨w, hw⟩ : ∃ w, ws[k]? = some w := ⟨_, List.getElem?_eq_getElem (by omega)⟩
  obtain ⟨e1, -, e3⟩ := w2 w (List.mem_of_getElem? hw)
  obtain ⟨e, st⟩ := w
  obtain ⟨a, ss, h1, rfl⟩ := hadd e e1
  have hend := (delivered_ended hE h1).1
  obtain ⟨l1, c1⟩ := column_actions hend hact cfg.useTerminal cfg.float
  obtain ⟨l2, c2⟩ := column_rewards hend hact hrew cfg.useTerminal cfg.float
  simp only [asEntry, hlk] at e3
  refine ⟨(ss.drop st).take (n + 1), by simp; omega, ⟨a, ss, h1, (List.take_prefix _ _).isInfix.trans
    (List.drop_suffix _ _).isInfix⟩, fun i s s' hi hi' => ?_⟩
  have hin : i < n := by
    have := (List.getElem?_eq_some_iff.1 hi').1
    simp at this; omega
  simp only [List.getElem?_take, List.getElem?_drop] at hi hi'
  rw [if_pos (by omega)] at hi hi'
  rw [show st + (i + 1) = st + i + 1 by omega] at hi'
  refine ⟨hend.next _ _ _ hi hi', fun f hf => ?_, ?_, ?_, ?_, ?_⟩
  · obtain ⟨col, o1, o2, o3⟩ := w3 f .plain (hmem ⟨f, .plain⟩ (by
      simp only [Builder.columns, List.mem_append, List.mem_flatMap]
      exact Or.inl (Or.inr ⟨f, hf, by simp [Builder.obsColumns]⟩)))
    obtain ⟨col', x1, x2, x3⟩ := w3 ("next_" ++ f) (.virt .next f) (hmem ⟨"next_" ++ f, .virt .next f⟩ (by
      simp only [Builder.columns, List.mem_append, List.mem_flatMap]
      exact Or.inl (Or.inr ⟨f, hf, by simp [Builder.obsColumns]⟩)))
    simp only [rowsPerWindow] at o2 o3 x2 x3
    obtain ⟨v, hv⟩ := Dict.get?_isSome_of_mem (((hend.step s (List.mem_of_getElem? hi)).features f).2 hf)
    obtain ⟨v', hv'⟩ := Dict.get?_isSome_of_mem (((hend.step s' (List.mem_of_getElem? hi')).features f).2 hf)
    have c3 := (column_feature hend hact hf hrew hterm' cfg.float).2
    refine ⟨col, col', v, v', by rw [(b5 f hf).1, o1], by rw [(b5 f hf).2, x1], o2, x2, hv, hv', ?_, ?_⟩
    · rw [(o3 k _ hw).2 i hin]
      simp only [windowOf, asEntry, List.getElem?_map, rowsFrom_get _ _ hin, c3, hi, Option.bind_some, hv, Option.map_some]
    · rw [(x3 k _ hw).2 i hin]
      simp only [windowOf, asEntry, List.getElem?_map, rowsFrom_get _ _ hin, c3]
      rw [show st + 1 + i = st + i + 1 by omega, hi']
      simp only [Option.bind_some, hv', Option.map_some]
  · have hns : s.ends = false := by
      cases hse : s.ends with
      | false => rfl
      | true => have := (hend.last _ _ hi).1 hse; omega
    obtain ⟨rr, v, g1, g2, -⟩ := (hend.step s (List.mem_of_getElem? hi)).action hns
    have hav : s.action = some v := by simp [Step.action, g1, g2, Dict.get?]
    refine ⟨v, hav, ?_⟩
    rw [(a3 k _ hw).2 i hin]
    simp only [windowOf, asEntry, List.getElem?_map, rowsFrom_get _ _ hin]
    rw [c1 _ (by omega), hi]
    simp only [Option.bind_some, hav, Option.map_some]
  · have hni : s'.obs.state ≠ .initial := fun h => by
      have := (hend.first _ _ hi').1 h
      omega
    obtain ⟨v, hv⟩ := Dict.get?_isSome_of_mem ((hend.step s' (List.mem_of_getElem? hi')).reward hni)
    refine ⟨v, hv, ?_⟩
    rw [(r3 k _ hw).2 i hin]
    simp only [windowOf, asEntry, List.getElem?_map, rowsFrom_get _ _ hin]
    rw [c2, hi']
    simp only [Option.bind_some, hv, Option.map_some]
  · have hx := hend.last _ _ hi'
    rw [(d3 k _ hw).2 i hin]
    simp only [windowOf, asEntry, List.getElem?_map, List.getElem?_range hin, Option.map_some, isLast]
    cases h : s'.ends with
    | true => have := hx.1 h; simp; omega
    | false =>
      have : ¬ (st + i + 1 + 1 = ss.length) := fun h' => by rw [hx.2 h'] at h; simp at h
      simp; omega
  · have hx := hend.last _ _ hi'
    rw [(m3 k _ hw).2 i hin]
    simp only [windowOf, asEntry, List.getElem?_map, List.getElem?_range hin, Option.map_some, isLast]
    cases h : s'.ends with
    | true => have := hx.1 h; simp; omega
    | false =>
      have : ¬ (st + i + 1 + 1 = ss.length) := fun h' => by rw [hx.2 h'] at h; simp at h
      simp; omega

/-- **C77** (transitions). A proxy in front of a one-step table of the builder, in any environment with features
`keys`, any number of agents, any interleaving with samples and resizes, any sampler and ejector, any draws: in every
batch that is delivered, window `k` is a run of `n` transitions that one agent made one after the other: a stretch of
one of the episodes that the proxy delivered. Row by row, the observation is what the agent saw, the action is what it answered, the reward and the next observation are those of
its next step, and `dones` and `masks` tell whether that step ended the episode. -/
theorem C77_transitions (hnames : ((Builder.columns false ut keys).map Column.name).Nodup)
    (hut : cfg.useTerminal = ut) (hlk : cfg.lengthKey = "actions")
    (hc : Created (Builder.columns false ut keys) maxlen "actions" t0) {es : List (Event V M)} {p : Proxy V (Table V)}
    (hl : Life cfg (Proxy.new t0) es p) (hE : Environment keys (es.flatMap Event.steps))
    (hids : ((delivered cfg [] (es.flatMap Event.steps)).map fun x => Table.wrapId x.1).Nodup) {count n : Nat}
    (hn : 0 < n) (hmin : n = 1 ∨ ∃ m, cfg.minLength = some m ∧ (n : Int) ≤ m) {c r : Nat → Nat}
    {junk : String → Nat → Cell V} {one : V → Bool} {t' : Table V} {b : Batch V}
    (hs : Table.sampleAdapted (Builder.adaptors one ut keys) count n c r junk p.table = (t', .ok b)) :
    ∃ (o x : Dict String (List (Cell V))) (act rew dn mk : List (Cell V)),
      b.get? "observation" = some (.obs o) ∧ b.get? "next_observation" = some (.obs x) ∧
      b.get? "actions" = some (.col act) ∧ b.get? "rewards" = some (.col rew) ∧ b.get? "dones" = some (.col dn) ∧
      b.get? "masks" = some (.col mk) ∧ o.keys = keys ∧ x.keys = keys ∧
      act.length = count * n ∧ rew.length = count * n ∧ dn.length = count * n ∧ mk.length = count * n ∧
      ∀ k, k < count → ∃ run : List (Step V M), run.length = n + 1 ∧
        (∃ a ss, (a, ss) ∈ delivered cfg [] (es.flatMap Event.steps) ∧ run <:+: ss) ∧
        ∀ (i : Nat) s s', run[i]? = some s → run[i + 1]? = some s' → Consecutive (es.flatMap Event.steps) s s' ∧
          (∀ f ∈ keys, ∃ col col' v v', o.get? f = some col ∧ x.get? f = some col' ∧ col.length = count * n ∧
            col'.length = count * n ∧ s.obs.arrays.get? f = some v ∧ s'.obs.arrays.get? f = some v' ∧
            col[k * n + i]? = some (.row v) ∧ col'[k * n + i]? = some (.row v')) ∧
          (∃ v, s.action = some v ∧ act[k * n + i]? = some (.row v)) ∧
          (∃ v, s'.obs.rewards.get? "reward" = some v ∧ rew[k * n + i]? = some (.row v)) ∧
          dn[k * n + i]? = some (.bit s'.ends) ∧ mk[k * n + i]? = some (.bit !s'.ends) := by
  obtain ⟨-, ops, hr, hacts⟩ := life_run hnames hut hlk hc hl hE hids
  have hadd : ∀ e ∈ added (acts "actions" ops), ∃ a ss, (a, ss) ∈ delivered cfg [] (es.flatMap Event.steps) ∧
      e = asEntry cfg (a, ss) := by
    intro e he
    rw [hacts, added_eventActs] at he
    obtain ⟨⟨a, ss⟩, h1, h2⟩ := List.mem_map.1 he
    exact ⟨a, ss, h1, h2.symm⟩
  exact run_transitions hnames hut hlk hc hr hE hadd hn hmin hs

/-- **C77** (contents). With FIFO ejection, the memory holds at any time exactly the agents' latest ended episodes, as
many as fit. -/
theorem C77_contents (hnames : ((Builder.columns nstep ut keys).map Column.name).Nodup)
    (hut : cfg.useTerminal = ut) (hlk : cfg.lengthKey = "actions")
    (hc : Created (Builder.columns nstep ut keys) maxlen "actions" t0) {f : Fifo} (hf : t0.ejector = .fifo f)
    {es : List (Event V M)} {p : Proxy V (Table V)} (hl : Life cfg (Proxy.new t0) es p)
    (hE : Environment keys (es.flatMap Event.steps))
    (hids : ((delivered cfg [] (es.flatMap Event.steps)).map fun x => Table.wrapId x.1).Nodup) {name : String}
    {d : Dict Int (List V)} (hd : p.table.stored name = some d) :
    d = (queueAfter maxlen (eventActs cfg [] es)).2.map fun e => (e.id, e.rows name) := by
  obtain ⟨-, ops, hr, hacts⟩ := life_run hnames hut hlk hc hl hE hids
  rw [← hacts]
  exact C02_fifo_is_bounded_queue hc hf hr hd

theorem observe_accepts {T : Type w} {c : Call V M} {h : List (Step V M)} {p : Proxy V T} {done : Dict Int (Episode V)}
    (hinv : ProxyInv cfg p h) {a : Int} {obs : Obs V M}
    (hs : EnvStep keys (⟨a, obs, c.responses.get? a⟩ : Step V M))
    (hst : obs.state = .initial → ongoing a h = []) :
    (Proxy.observe cfg c.responses (a, obs) (p, done)).2 = .ok () := by
  have hdata : ∃ data, Proxy.obsData p a obs = .ok data := by
    unfold Proxy.obsData
    by_cases hi : obs.state = .initial
    · rw [if_neg (by simp [hi])]
      cases hg : p.store.get? a with
      | none =>
        rw [if_neg]
        · exact ⟨_, rfl⟩
        · have hnot := Dict.get?_none_iff.1 hg
          have := Dict.contains_false_iff.2 hnot
          simp [this]
      | some ep => exact absurd (hst hi) (hinv.some a ep hg).1
    · rw [if_pos hi]
      obtain ⟨v, hv⟩ := Dict.get?_isSome_of_mem (hs.reward hi)
      simp only at hv
      rw [hv]
      exact ⟨_, rfl⟩
  obtain ⟨data, hd⟩ := hdata
  unfold Proxy.observe
  simp only [hd]
  by_cases ht : Proxy.isTerm obs.state = true
  · rw [if_pos ht]
    cases p.store.get? a <;> rfl
  · rw [if_neg ht]
    have hne : (⟨a, obs, c.responses.get? a⟩ : Step V M).ends = false := by
      cases hh : obs.state <;> simp_all [Step.ends, Proxy.isTerm]
    obtain ⟨r, v, h1, -⟩ := hs.action hne
    simp only at h1
    simp only [h1]

theorem observeAll_accepts {T : Type w} {c : Call V M} (hw : c.WF) (obs : List (Int × Obs V M))
    (hsub : ∀ x ∈ obs, x ∈ c.observations) (hnd : (Dict.keys obs).Nodup) {h : List (Step V M)} {p : Proxy V T}
    {done : Dict Int (Episode V)} (hinv : ProxyInv cfg p h) (hd : ∀ a ∈ Dict.keys obs, a ∉ done.keys)
    (hE : Environment keys (h ++ obs.map fun ao => (⟨ao.1, ao.2, c.responses.get? ao.1⟩ : Step V M))) :
    (Res.forEach obs (Proxy.observe cfg c.responses) (p, done)).2 = .ok () := by
  induction obs generalizing h p done with
  | nil => rfl
  | cons x obs ih =>
    obtain ⟨a, o⟩ := x
    have h1 := observe_accepts (cfg := cfg) (done := done) (c := c) hinv (a := a) (obs := o)
      (hE.steps _ (by simp)) (fun hi => ((hE.starts h ⟨a, o, c.responses.get? a⟩ _ (by simp; rfl)).1 hi).1)
    rcases hr : Proxy.observe cfg c.responses (a, o) (p, done) with ⟨⟨p1, done1⟩, r⟩
    rw [hr] at h1
    simp only at h1
    subst h1
    obtain ⟨i1, i2, new, i3, i4, -⟩ := observeAll_ok hw [(a, o)] (fun y hy => hsub y (by simp at hy; simp [hy]))
      (by simp) hinv (fun b hb => hd b (by simp at hb; simp [hb])) (p' := p1) (done' := done1) (by
        simp only [Res.forEach, hr]; rfl)
    simp only [Res.forEach, hr, Res.andThen_ok]
    simp only [Dict.keys_cons, List.nodup_cons] at hnd
    refine ih (fun y hy => hsub y (by simp [hy])) hnd.2 i1 ?_ (by simpa [List.append_assoc] using hE)
    intro b hb hb'
    rw [i3] at hb'
    simp only [Dict.keys, List.map_append, List.mem_append] at hb'
    rcases hb' with hb' | hb'
    · exact hd b (by simp [hb]) hb'
    · obtain ⟨y, hy, rfl⟩ := List.mem_map.1 hb'
      have := i4 y hy
      simp at this
      rw [this] at hb
      exact hnd.1 hb

theorem flush_accepts (hnames : ((Builder.columns nstep ut keys).map Column.name).Nodup) (hut : cfg.useTerminal = ut)
    (hlk : cfg.lengthKey = "actions") (hc : Created (Builder.columns nstep ut keys) maxlen "actions" t0) {f : Fifo}
    (hfifo : t0.ejector = .fifo f) {h : List (Step V M)} (draws : Int → List Nat) (done : Dict Int (Episode V))
    (want : List (Int × List (Step V M)))
    (hm : List.Forall₂ (fun got want => got.1 = want.1 ∧ Shows cfg got.2 want.2) done want)
    (hended : ∀ x ∈ want, Ended keys h x.1 x.2) {ops : List (Op V)} {p : Proxy V (Table V)} (hr : Run t0 ops p.table)
    (hfresh : ((added (acts "actions" ops)).map Entry.id ++ want.map fun x => Table.wrapId x.1).Nodup)
    (hfit : ∀ x ∈ want, ((x.2.length : Int) - 1) ≤ p.table.maxlen) :
    (Proxy.flush (fun a ep t => Table.addSequence (draws a) a ep t) done p).2 = .ok () := by
  unfold Proxy.flush
  induction hm generalizing ops p with
  | nil => rfl
  | @cons g w gs ws hgw _ ih =>
    obtain ⟨ga, ep⟩ := g
    obtain ⟨wa, ss⟩ := w
    obtain ⟨rfl, hsh⟩ : ga = wa ∧ Shows cfg ep ss := hgw
    have hE := hended (ga, ss) (by simp)
    obtain ⟨hact, hrew, hterm⟩ := builder_reserved hnames
    have hnot : Table.wrapId ga ∉ p.table.lengths.keys := by
      intro hid
      have := stored_ids hc hr hid
      exact (List.nodup_append.1 hfresh).2.2 _ this _ (by simp) rfl
    have hseq := env_seqOk hnames hut hlk hc hr hE hsh
    have hlen := (column_actions hE hact cfg.useTerminal cfg.float).1
    have hL := hE.long
    obtain ⟨rows, hrows⟩ : ∃ rows, Dict.get? ep "actions" = some rows := by
      obtain ⟨q, hq⟩ := run_hist hc hr
      have hcols := builder_columns_eq hnames hq
      exact Dict.get?_isSome_of_mem (hseq.complete ("actions", .plain)
        (by rw [hcols]; simp [Builder.columns]) (Or.inl rfl))
    have hrl : rows = column cfg.useTerminal cfg.float "actions" ss := by
      rw [← hsh.cols, Episode.touch, hrows]
    have hfit0 := hfit (ga, ss) (by simp)
    obtain ⟨t1, h3⟩ := C02_add_succeeds hc hfifo hr (draws ga) ga ep hseq hnot hrows (by
      rw [hrl]
      dsimp only at hfit0 hlen
      omega)
    have hr1 := Run.add hr hseq hnot h3
    have hacts : acts "actions" (ops ++ [.add ga ep (draws ga)])
        = acts "actions" ops ++ [.add (asEntry cfg (ga, ss))] := by
      rw [acts_append, toAct_add, ← hlk, entryOf_shows hsh]
    have hmax : t1.maxlen = p.table.maxlen := by
      have e1 := (C01_size_le_capacity hc hr).2.2
      have e2 := (C01_size_le_capacity hc hr1).2.2
      rw [e2, e1, hacts]
      simp [queueAfter, queueStep]
    simp only [Res.forEach, h3, Res.lift, Res.andThen_ok]
    refine ih (fun x hx => hended x (by simp [hx])) (p := { p with table := t1 }) hr1 ?_ ?_
    · rw [hacts, added_append]
      simpa [added, asEntry, List.append_assoc] using hfresh
    · intro x hx
      rw [hmax]
      exact hfit x (by simp [hx])

/-- **C77** (no data is refused). With FIFO ejection, the next call of an environment is always accepted, if the
episodes that end in it fit into the memory and their agents have not delivered an episode before. -/
theorem C77_accepts (hnames : ((Builder.columns nstep ut keys).map Column.name).Nodup)
    (hut : cfg.useTerminal = ut) (hlk : cfg.lengthKey = "actions")
    (hc : Created (Builder.columns nstep ut keys) maxlen "actions" t0) {f : Fifo} (hf : t0.ejector = .fifo f)
    {es : List (Event V M)} {p : Proxy V (Table V)} (hl : Life cfg (Proxy.new t0) es p) {c : Call V M} (hw : c.WF)
    (draws : Int → List Nat) (hE : Environment keys ((es ++ [Event.add c draws]).flatMap Event.steps))
    (hids : ((delivered cfg [] ((es ++ [Event.add c draws]).flatMap Event.steps)).map fun x => Table.wrapId x.1).Nodup)
    (hfit : ∀ x ∈ delivered cfg (es.flatMap Event.steps) c.steps, ((x.2.length : Int) - 1) ≤ p.table.maxlen) :
    ∃ p', Proxy.add cfg (fun a ep t => Table.addSequence (draws a) a ep t) c.observations c.responses p = (p', .ok ()) ∧
      Life cfg (Proxy.new t0) (es ++ [.add c draws]) p' := by
  rw [List.flatMap_append] at hE hids
  simp only [List.flatMap_cons, List.flatMap_nil, List.append_nil, Event.steps] at hE hids
  rw [delivered_append, List.nil_append, List.map_append] at hids
  obtain ⟨hinv, ops, hr, hacts⟩ := life_run hnames hut hlk hc hl hE.prefix (List.nodup_append.1 hids).1
  have h1 := observeAll_accepts (cfg := cfg) hw c.observations (fun _ h => h) hw.agents hinv (done := []) (by simp) hE
  rcases hfe : Res.forEach c.observations (Proxy.observe cfg c.responses) (p, []) with ⟨⟨p1, done⟩, r⟩
  rw [hfe] at h1
  simp only at h1
  subst h1
  obtain ⟨i, tt, new, e, _, ff⟩ := observeAll_ok hw c.observations (fun _ h => h) hw.agents hinv (by simp) hfe
  rw [List.nil_append] at e
  subst e
  have h2 := flush_accepts hnames hut hlk hc hf (h := es.flatMap Event.steps ++ c.steps) draws done _ ff
    (fun x hx => (delivered_ended hE (by
      rw [delivered_append]
      exact List.mem_append_right _ (by simpa [Call.steps] using hx))).1) (p := p1) (by rw [tt]; exact hr)
    (by
      rw [hacts, added_eventActs, List.map_map]
      exact hids) (by rw [tt]; exact hfit)
  have hadd : Proxy.add cfg (fun a ep t => Table.addSequence (draws a) a ep t) c.observations c.responses p =
      ((Proxy.flush (fun a ep t => Table.addSequence (draws a) a ep t) done p1).1, .ok ()) := by
    unfold Proxy.add
    rw [hfe]
    exact Prod.ext rfl h2
  exact ⟨_, hadd, Life.add hl hw hadd⟩

end

/-! ## A concrete case

Two agents, interleaved; the episode of agent 1 has two transitions, that of agent 2 one. -/

namespace ExE

def obs (st : EpState) (v r : Nat) : Obs Nat Unit := ⟨[("reward", r)], st, [("pos", v)], none⟩
def resp (a : Nat) : Response Nat := ⟨[("actions", a)], []⟩
def cfg : ProxyCfg Nat := ⟨some 1, "actions", true, fun b => if b then 1 else 0⟩
def t0 : Table Nat := (Table.new (Builder.columns false true ["pos"]) 5 (.uniform {}) (.fifo {}) "actions").1

def c1 : Call Nat Unit := ⟨[(1, obs .initial 10 0), (2, obs .initial 20 0)], [(1, resp 100), (2, resp 200)]⟩
def c2 : Call Nat Unit := ⟨[(1, obs .running 11 7), (2, obs .interrupted 21 9)], [(1, resp 101)]⟩
def c3 : Call Nat Unit := ⟨[(1, obs .terminal 12 8)], []⟩

def step (c : Call Nat Unit) (p : Proxy Nat (Table Nat)) : Proxy Nat (Table Nat) :=
  (Proxy.add cfg (fun a ep t => Table.addSequence [] a ep t) c.observations c.responses p).1

def final : Proxy Nat (Table Nat) := step c3 (step c2 (step c1 (Proxy.new t0)))

def events : List (Event Nat Unit) := [.add c1 fun _ => [], .add c2 fun _ => [], .add c3 fun _ => []]

theorem life : Life cfg (Proxy.new t0) events final :=
  Life.add (es := [_, _]) (Life.add (es := [_]) (Life.add (es := []) Life.nil
    (Call.wf_of (by decide) (by decide) (by decide)) (Prod.ext rfl (by decide +kernel)))
    (Call.wf_of (by decide) (by decide) (by decide)) (Prod.ext rfl (by decide +kernel)))
    (Call.wf_of (by decide) (by decide) (by decide)) (Prod.ext rfl (by decide +kernel))

theorem created : Created (Builder.columns false true ["pos"]) 5 "actions" t0 :=
  ⟨by decide, _, _, .uniform, .fifo true true, Prod.ext rfl (by decide +kernel)⟩

theorem names : ((Builder.columns false true ["pos"]).map Column.name).Nodup := by decide +kernel

/-- The steps of the events. -/
def stream : List (Step Nat Unit) := events.flatMap Event.steps

example : stream.map (fun s => (s.agent, s.obs.state)) =
    [(1, .initial), (2, .initial), (1, .running), (2, .interrupted), (1, .terminal)] := by decide +kernel

theorem steps_ok : ∀ s ∈ stream, EnvStep ["pos"] s := by
  intro s hs
  simp only [stream, events, Event.steps, Call.steps, c1, c2, c3, List.flatMap_cons, List.flatMap_nil, List.map_cons,
    List.map_nil, List.append_nil, List.cons_append, List.nil_append, List.mem_cons, List.not_mem_nil, or_false] at hs
  rcases hs with rfl | rfl | rfl | rfl | rfl
  · exact ⟨by simp [obs], by simp [obs], fun _ => ⟨resp 100, 100, by decide, rfl, rfl⟩⟩
  · exact ⟨by simp [obs], by simp [obs], fun _ => ⟨resp 200, 200, by decide, rfl, rfl⟩⟩
  · exact ⟨by simp [obs], by simp [obs], fun _ => ⟨resp 101, 101, by decide, rfl, rfl⟩⟩
  · exact ⟨by simp [obs], by simp [obs], fun h => by simp [Step.ends, obs] at h⟩
  · exact ⟨by simp [obs], by simp [obs], fun h => by simp [Step.ends, obs] at h⟩

/-- `starts`, in a form that can be computed. -/
def startsOk (h : List (Step Nat Unit)) : Bool :=
  (List.range h.length).all fun i => match h[i]? with
    | none => true
    | some s => decide (s.obs.state = .initial) == ((ongoing s.agent (h.take i)).isEmpty && !s.ends)

theorem starts_of {h : List (Step Nat Unit)} (hk : startsOk h = true) (pre : List (Step Nat Unit)) (s : Step Nat Unit)
    (post : List (Step Nat Unit)) (e : h = pre ++ s :: post) :
    s.obs.state = .initial ↔ ongoing s.agent pre = [] ∧ s.ends = false := by
  unfold startsOk at hk
  rw [List.all_eq_true] at hk
  have := hk pre.length (by rw [e]; simp)
  rw [e] at this
  simp only [List.getElem?_append_right (Nat.le_refl _), Nat.sub_self, List.getElem?_cons_zero, List.take_left,
    beq_iff_eq] at this
  rw [← decide_eq_true_iff (p := s.obs.state = .initial), this]
  simp [List.isEmpty_iff]

theorem environment : Environment ["pos"] stream := ⟨steps_ok, starts_of (by decide +kernel)⟩

example : (Table.sampleAdapted (Builder.adaptors (· == 1) true ["pos"]) 4 1 id (fun i => i / 2) (fun _ _ => .bit false)
      final.table).2
    = .ok [("actions", .col [.row 200, .row 100, .row 200, .row 101]),
        ("dones", .col [.bit true, .bit false, .bit true, .bit true]),
        ("masks", .col [.bit false, .bit true, .bit false, .bit false]),
        ("rewards", .col [.row 9, .row 7, .row 9, .row 8]),
        ("terminal", .col [.row 1, .bit true, .row 1, .bit false]),
        ("observation", .obs [("pos", [.row 20, .row 10, .row 20, .row 11])]),
        ("next_observation", .obs [("pos", [.row 21, .row 11, .row 21, .row 12])])] := by decide +kernel

/-- The next call, by a third agent, is accepted. -/
example : ∃ p', Life cfg (Proxy.new t0) (events ++ [.add ⟨[(3, obs .initial 30 0)], [(3, resp 300)]⟩ fun _ => []]) p' := by
  refine (C77_accepts (f := {}) names rfl rfl created (by decide +kernel) life
    (c := ⟨[(3, obs .initial 30 0)], [(3, resp 300)]⟩) (Call.wf_of (by decide) (by decide) (by decide)) (fun _ => [])
    ⟨?_, starts_of (by decide +kernel)⟩ (by decide +kernel) (by decide +kernel)).imp fun p h => h.2
  intro s hs
  rw [List.flatMap_append, List.mem_append] at hs
  rcases hs with hs | hs
  · exact steps_ok s hs
  · simp only [Event.steps, Call.steps, List.flatMap_cons, List.flatMap_nil, List.map_cons, List.map_nil,
      List.append_nil, List.mem_singleton] at hs
    subst hs
    exact ⟨by simp [obs], by simp [obs], fun _ => ⟨resp 300, 300, by decide, rfl, rfl⟩⟩

example {b : Batch Nat} {t' : Table Nat} {count : Nat} {c r : Nat → Nat} {junk : String → Nat → Cell Nat}
    (hs : Table.sampleAdapted (Builder.adaptors (· == 1) true ["pos"]) count 1 c r junk final.table = (t', .ok b)) :=
  C77_transitions names rfl rfl created life environment (by decide +kernel) (by decide) (Or.inl rfl) hs

example := C77_contents names rfl rfl created (f := {}) (by decide +kernel) life environment (by decide +kernel)
  (name := "pos") (d := [(2, [20, 21]), (1, [10, 11, 12])]) (by decide +kernel)

end ExE

end Verif.Props
