import Verif.Model.ClassHooks
import Verif.Props.Callback

/-!
# Which methods of a callback are wrapped (C136)
-/

namespace Verif

namespace Meta

variable {W : Type u} {V : Type v}

/-! ## Specification -/

namespace Spec

/-- The method that Python runs: the definition in the most derived class that has one. -/
def Defines (cls : List (Body W V)) (name : String) (f : Func W V) : Prop :=
  ∃ pre b post, cls = pre ++ b :: post ∧ (∀ c ∈ pre, name ∉ Dict.keys c.fields) ∧ (name, f) ∈ b.fields

/-- A body is a dict. -/
def Proper (cls : List (Body W V)) : Prop := ∀ b ∈ cls, (Dict.keys b.fields).Nodup

/-- The class introduces a hook: it is `Callback` itself, or it marks the method with `Callback.extend`. -/
def Introduces (b : Body W V) (name : String) (f : Func W V) : Prop :=
  b.mixin = false ∧ (name, f) ∈ b.fields ∧ (b.name = "Callback" ∧ name ∈ hookNames ∨ f.marked = true)

/-- Classes which derive from the one that introduces a hook with the qualified name `q`: none is called `Callback`, and none
has a definition of its own that has been marked again or has that same qualified name. -/
def Distinct (user : List (Body W V)) (name q : String) : Prop :=
  ∀ b ∈ user, b.name ≠ "Callback" ∧ ∀ f, (name, f) ∈ b.fields → f.marked = false ∧ f.qualname ≠ q

/-- The name of a hook in Python -/
def hookName : Hook → String
  | .restoreState => "restore_state"
  | .beginTraining => "begin_training"
  | .beginCycle => "begin_cycle"
  | .beginBatch => "begin_batch"
  | .backward => "backward"
  | .endBatch => "end_batch"
  | .endCycle => "end_cycle"
  | .endTraining _ => "end_training"

end Spec

/-! ## Lemmas -/

theorem lookup_defines {cls : List (Body W V)} {name : String} {f : Func W V} (hp : Spec.Proper cls) :
    lookup cls name = some f ↔ Spec.Defines cls name f := by
  induction cls with
  | nil =>
    refine ⟨fun h => by simp [lookup] at h, ?_⟩
    rintro ⟨pre, b, post, h, -⟩
    simp at h
  | cons b rest ih =>
    have ih := ih fun c hc => hp c (List.mem_cons_of_mem _ hc)
    have hb := hp b List.mem_cons_self
    unfold lookup
    cases hg : Dict.get? b.fields name with
    | some g =>
      simp only [Option.some.injEq]
      refine ⟨fun h => ⟨[], b, rest, rfl, by simp, by rw [← h]; exact Dict.mem_of_get? hg⟩, ?_⟩
      rintro ⟨pre, c, post, h1, h2, h3⟩
      cases pre with
      | nil =>
        simp only [List.nil_append, List.cons.injEq] at h1
        rw [← h1.1] at h3
        have := Dict.get?_of_mem hb h3
        rw [hg] at this
        exact Option.some.inj this
      | cons d pre =>
        simp only [List.cons_append, List.cons.injEq] at h1
        have := h2 d List.mem_cons_self
        rw [← h1.1] at this
        exact absurd (Dict.mem_keys_of_get? hg) this
    | none =>
      simp only
      rw [ih]
      have hn := Dict.get?_none_iff.1 hg
      constructor
      · rintro ⟨pre, c, post, h1, h2, h3⟩
        refine ⟨b :: pre, c, post, by rw [h1]; rfl, ?_, h3⟩
        intro d hd
        rcases List.mem_cons.1 hd with rfl | hd
        · exact hn
        · exact h2 d hd
      · rintro ⟨pre, c, post, h1, h2, h3⟩
        cases pre with
        | nil =>
          simp only [List.nil_append, List.cons.injEq] at h1
          rw [← h1.1] at h3
          exact absurd (Dict.mem_keys_of_mem h3) hn
        | cons d pre =>
          simp only [List.cons_append, List.cons.injEq] at h1
          exact ⟨pre, c, post, h1.2, fun e he => h2 e (List.mem_cons_of_mem _ he), h3⟩

theorem lookup_none {cls : List (Body W V)} {name : String} :
    lookup cls name = none ↔ ∀ b ∈ cls, name ∉ Dict.keys b.fields := by
  induction cls with
  | nil => simp [lookup]
  | cons b rest ih =>
    unfold lookup
    cases hg : Dict.get? b.fields name with
    | some g =>
      refine ⟨fun h => by simp at h, fun h => absurd (Dict.mem_keys_of_get? hg) (h b List.mem_cons_self)⟩
    | none =>
      simp only
      rw [ih]
      refine ⟨fun h c hc => ?_, fun h c hc => h c (List.mem_cons_of_mem _ hc)⟩
      rcases List.mem_cons.1 hc with rfl | hc
      · exact Dict.get?_none_iff.1 hg
      · exact h c hc

theorem lookup_append (xs ys : List (Body W V)) (name : String) :
    lookup (xs ++ ys) name = (lookup xs name).or (lookup ys name) := by
  induction xs with
  | nil => rfl
  | cons b rest ih =>
    simp only [List.cons_append, lookup]
    cases Dict.get? b.fields name with
    | some g => rfl
    | none => exact ih

theorem addMarked_get (fields acc : Dict String (Func W V)) (hn : (Dict.keys fields).Nodup) (name : String) :
    Dict.get? (addMarked fields acc) name = match Dict.get? fields name with
      | some f => if f.marked then some f else Dict.get? acc name
      | none => Dict.get? acc name := by
  unfold addMarked
  induction fields generalizing acc with
  | nil => rfl
  | cons kv rest ih =>
    obtain ⟨k, f⟩ := kv
    simp only [Dict.keys_cons, List.nodup_cons] at hn
    simp only [List.foldl_cons]
    rw [ih _ hn.2]
    by_cases hk : k = name
    · subst hk
      have hr : Dict.get? rest k = none := Dict.get?_none_iff.2 hn.1
      have hs : Dict.get? ((k, f) :: rest) k = some f := by simp [Dict.get?]
      rw [hr, hs]
      simp only
      split
      · rw [Dict.get?_set_self]
      · rfl
    · have hs : Dict.get? ((k, f) :: rest) name = Dict.get? rest name := by simp [Dict.get?, hk]
      have ha : Dict.get? (if f.marked then acc.set k f else acc) name = Dict.get? acc name := by
        split
        · rw [Dict.get?_set_ne hk]
        · rfl
      rw [hs, ha]

theorem addMarked_nodup (fields acc : Dict String (Func W V)) (ha : (Dict.keys acc).Nodup) :
    (Dict.keys (addMarked fields acc)).Nodup := by
  unfold addMarked
  induction fields generalizing acc with
  | nil => exact ha
  | cons kv rest ih =>
    simp only [List.foldl_cons]
    apply ih
    split
    · exact Dict.nodup_set ha
    · exact ha

theorem keys_filter_nodup {d : Dict String (Func W V)} (p : String × Func W V → Bool) (hn : (Dict.keys d).Nodup) :
    (Dict.keys (d.filter p)).Nodup :=
  List.Nodup.sublist (List.Sublist.map _ List.filter_sublist) hn

theorem callbacks_nodup {cls : List (Body W V)} (hp : Spec.Proper cls) : (Dict.keys (callbacks cls)).Nodup := by
  induction cls with
  | nil => simp [callbacks]
  | cons b rest ih =>
    have ih := ih fun c hc => hp c (List.mem_cons_of_mem _ hc)
    unfold callbacks
    split
    · exact ih
    · apply addMarked_nodup
      split
      · exact keys_filter_nodup _ (hp b List.mem_cons_self)
      · exact ih

/-- The class that introduces a hook knows it. -/
theorem callbacks_intro {b : Body W V} {rest : List (Body W V)} {name : String} {f : Func W V}
    (hb : (Dict.keys b.fields).Nodup) (h : Spec.Introduces b name f) :
    Dict.get? (callbacks (b :: rest)) name = some f := by
  obtain ⟨h1, h2, h3⟩ := h
  have hg := Dict.get?_of_mem hb h2
  unfold callbacks
  rw [if_neg (by simp [h1]), addMarked_get _ _ hb, hg]
  simp only
  by_cases hm : f.marked = true
  · rw [if_pos hm]
  · rw [if_neg hm]
    rcases h3 with ⟨h3, h4⟩ | h3
    · rw [if_pos h3]
      exact Dict.get?_of_mem (keys_filter_nodup _ hb) (List.mem_filter.2 ⟨h2, by simpa using h4⟩)
    · exact absurd h3 hm

/-- The classes that derive from it too. -/
theorem callbacks_user {user : List (Body W V)} {base : List (Body W V)} {name q : String} {f : Func W V}
    (hp : Spec.Proper user) (hd : Spec.Distinct user name q) (h : Dict.get? (callbacks base) name = some f) :
    Dict.get? (callbacks (user ++ base)) name = some f := by
  induction user with
  | nil => exact h
  | cons b rest ih =>
    have ih := ih (fun c hc => hp c (List.mem_cons_of_mem _ hc)) fun c hc => hd c (List.mem_cons_of_mem _ hc)
    have hb := hp b List.mem_cons_self
    obtain ⟨h1, h2⟩ := hd b List.mem_cons_self
    simp only [List.cons_append, callbacks, if_neg h1]
    split
    · exact ih
    · rw [addMarked_get _ _ hb]
      split
      · rename_i g hg
        rw [if_neg (by simp [(h2 g (Dict.mem_of_get? hg)).1])]
        exact ih
      · exact ih

theorem patch_keys {attrs : Dict String String} {group : Option String} {cls : List (Body W V)} :
    ∀ {cbs : Dict String (Func W V)} {d : Dict String (Call W V)}, patch attrs group cls cbs = .ok d →
      ∀ n, n ∈ Dict.keys d → n ∈ Dict.keys cbs := by
  intro cbs
  induction cbs with
  | nil => intro d h n hn; simp only [patch, Except.ok.injEq] at h; subst h; simp at hn
  | cons kv rest ih =>
    obtain ⟨k, f⟩ := kv
    intro d h n hn
    unfold patch at h
    split at h
    · simp at h
    · split at h
      · exact List.mem_cons_of_mem _ (ih h n hn)
      · split at h
        · simp at h
        · split at h
          · simp at h
          · rename_i d' hd'
            simp only [Except.ok.injEq] at h
            subst h
            simp only [Dict.keys_cons, List.mem_cons] at hn ⊢
            rcases hn with hn | hn
            · exact .inl hn
            · exact .inr (ih hd' n hn)

theorem patch_get {attrs : Dict String String} {group : Option String} {cls : List (Body W V)} {name : String}
    {f : Func W V} : ∀ {cbs : Dict String (Func W V)} {d : Dict String (Call W V)}, (Dict.keys cbs).Nodup →
      patch attrs group cls cbs = .ok d → Dict.get? cbs name = some f →
      ∃ g, lookup cls name = some g ∧ if g.qualname = f.qualname then Dict.get? d name = none else
        ∃ c, wrapMethod attrs group g.method = .ok c ∧ Dict.get? d name = some c := by
  intro cbs
  induction cbs with
  | nil => intro d _ _ h; simp [Dict.get?] at h
  | cons kv rest ih =>
    obtain ⟨k, f'⟩ := kv
    intro d hn h hf
    simp only [Dict.keys_cons, List.nodup_cons] at hn
    by_cases hk : k = name
    · subst hk
      have : f' = f := by simpa [Dict.get?] using hf
      subst this
      unfold patch at h
      split at h
      · simp at h
      · rename_i g hg
        refine ⟨g, hg, ?_⟩
        split at h
        · rename_i hq
          rw [if_pos hq]
          exact Dict.get?_none_iff.2 fun hc => hn.1 (patch_keys h _ hc)
        · rename_i hq
          rw [if_neg hq]
          split at h
          · simp at h
          · rename_i c hc
            split at h
            · simp at h
            · simp only [Except.ok.injEq] at h
              subst h
              exact ⟨c, hc, by simp [Dict.get?]⟩
    · have hf' : Dict.get? rest name = some f := by simpa [Dict.get?, hk] using hf
      unfold patch at h
      split at h
      · simp at h
      · split at h
        · exact ih hn.2 h hf'
        · split at h
          · simp at h
          · split at h
            · simp at h
            · rename_i d' hd'
              simp only [Except.ok.injEq] at h
              subst h
              obtain ⟨g, h1, h2⟩ := ih hn.2 hd' hf'
              refine ⟨g, h1, ?_⟩
              simpa [Dict.get?, hk] using h2

/-! ## C136 -/

/-- **C136, partial.** In a class that derives, at any distance and with any mixins, from one that introduces a hook: if no
class in between defines it, the instance has the method of the introducing class as it is; otherwise it has the most derived
definition, wrapped. Missing: classes that are called `Callback`, or have the name of the introducing class, or mark the hook
again; see `C136_false`. -/
theorem C136_partial {user rest : List (Body W V)} {intro_ : Body W V} {name : String} {f : Func W V}
    (hp : Spec.Proper (user ++ intro_ :: rest)) (hi : Spec.Introduces intro_ name f)
    (hd : Spec.Distinct user name f.qualname) {attrs : Dict String String} {group : Option String}
    {inst : Dict String (Call W V)} (hc : construct attrs group (user ++ intro_ :: rest) = .ok inst) :
    ((∀ b ∈ user, name ∉ Dict.keys b.fields) → attr (user ++ intro_ :: rest) inst name = some f.method.call) ∧
      ∀ g, Spec.Defines user name g →
        ∃ c, wrapMethod attrs group g.method = .ok c ∧ attr (user ++ intro_ :: rest) inst name = some c := by
  have hpu : Spec.Proper user := fun b hb => hp b (List.mem_append_left _ hb)
  have hpi := hp intro_ (by simp)
  have hcb := callbacks_user (base := intro_ :: rest) hpu hd (callbacks_intro hpi hi)
  obtain ⟨g, h1, h2⟩ := patch_get (callbacks_nodup hp) hc hcb
  have hli : lookup (intro_ :: rest) name = some f := by
    unfold lookup
    rw [Dict.get?_of_mem hpi hi.2.1]
  have hla := lookup_append user (intro_ :: rest) name
  constructor
  · intro hn
    rw [lookup_none.2 hn, hli, Option.none_or] at hla
    have : g = f := by
      rw [hla] at h1
      exact (Option.some.inj h1).symm
    subst this
    rw [if_pos rfl] at h2
    unfold attr
    rw [h2]
    simp only [hla, Option.map_some]
  · intro g' hg'
    have hl := (lookup_defines hpu).2 hg'
    rw [hl, Option.some_or] at hla
    have : g = g' := by
      rw [hla] at h1
      exact (Option.some.inj h1).symm
    subst this
    obtain ⟨pre, b, post, e1, -, e3⟩ := hg'
    rw [if_neg ((hd b (by rw [e1]; simp)).2 g e3).2] at h2
    obtain ⟨c, h3, h4⟩ := h2
    refine ⟨c, h3, ?_⟩
    unfold attr
    rw [h4]

theorem root_introduces (h : Hook) :
    Spec.Introduces (root : Body W V) (Spec.hookName h) ⟨"Callback." ++ Spec.hookName h, false, nothing⟩ := by
  have : Spec.hookName h ∈ hookNames := by cases h <;> simp [Spec.hookName, hookNames]
  exact ⟨rfl, List.mem_map.2 ⟨_, this, rfl⟩, .inl ⟨rfl, this⟩⟩

theorem root_proper : (Dict.keys (root : Body W V).fields).Nodup := by
  have : Dict.keys (root : Body W V).fields = hookNames := by simp [root, Dict.keys, hookNames]
  rw [this]
  decide +kernel

/-- **C136, partial** (the hooks of the training loop). A callback of any such class does in the loop what C42 and C43 say
about its most derived definition of a hook, and nothing if it has none. -/
theorem C136_loop_partial {user : List (Body W V)} (hp : Spec.Proper user) (h : Hook)
    (hd : Spec.Distinct user (Spec.hookName h) ("Callback." ++ Spec.hookName h)) {attrs : Dict String String}
    {group : Option String} {inst : Dict String (Call W V)} (hc : construct attrs group (user ++ [root]) = .ok inst) :
    ∃ c, attr (user ++ [root]) inst (Spec.hookName h) = some c ∧ ∀ (kw : Dict String (PyVal V)) (w : GWorld W V),
      ((∀ b ∈ user, Spec.hookName h ∉ Dict.keys b.fields) → "self" ∉ kw.keys → c h.positional kw w = (w, .ok none)) ∧
      ∀ g, Spec.Defines user (Spec.hookName h) g → c h.positional kw w = hookOf attrs group (some g.method) h kw w := by
  have hp' : Spec.Proper (user ++ [root]) := by
    intro b hb
    rcases List.mem_append.1 hb with hb | hb
    · exact hp b hb
    · rw [List.mem_singleton.1 hb]; exact root_proper
  obtain ⟨h1, h2⟩ := C136_partial hp' (root_introduces h) hd hc
  cases hl : lookup user (Spec.hookName h) with
  | none =>
    have hn := lookup_none.1 hl
    refine ⟨_, h1 hn, fun kw w => ⟨fun _ hs => ?_, fun g hg => ?_⟩⟩
    · have hany : kw.any (fun kv => decide (kv.1 = "self")) = false := by
        rw [List.any_eq_false]
        intro kv hkv
        simp only [decide_eq_true_eq]
        intro he
        exact hs (he ▸ Dict.mem_keys_of_mem (show (kv.1, kv.2) ∈ kw from hkv))
      unfold Method.call nothing anything Sig.bind
      simp [hany]
    · rw [(lookup_defines hp).2 hg] at hl
      simp at hl
  | some g =>
    have hg := (lookup_defines hp).1 hl
    obtain ⟨c, h3, h4⟩ := h2 g hg
    refine ⟨c, h4, fun kw w => ⟨fun hn => ?_, fun g' hg' => ?_⟩⟩
    · rw [lookup_none.2 hn] at hl
      simp at hl
    · have : g' = g := by
        have := (lookup_defines hp).2 hg'
        rw [hl] at this
        exact (Option.some.inj this).symm
      subst this
      unfold hookOf
      simp only [h3]

theorem loss_introduces (after : HookResult W V → HookResult W V) (loss : Call W V) :
    Spec.Introduces (lossCallback after loss) "loss"
      ⟨"LossCallback.loss", true, anything, fun _ w => (w, .error (.error .runtimeError))⟩ :=
  ⟨rfl, by simp [lossCallback], .inr rfl⟩

/-- **C136, partial** (losses). In the backward phase a loss of any class that derives from `LossCallback`, and leaves
`backward` alone, runs its most derived definition of `loss` with arguments as C42 and C43 say, data group included. -/
theorem C136_loss_partial {user : List (Body W V)} (hp : Spec.Proper user) (after : HookResult W V → HookResult W V)
    (loss : Call W V) (hb : ∀ b ∈ user, "backward" ∉ Dict.keys b.fields)
    (hd : Spec.Distinct user "loss" "LossCallback.loss") {g : Func W V} (hg : Spec.Defines user "loss" g)
    {attrs : Dict String String} {group : Option String} {inst : Dict String (Call W V)}
    (hc : construct attrs group (user ++ lossCallback after loss :: [root]) = .ok inst)
    (hl : attr (user ++ lossCallback after loss :: [root]) inst "loss" = some loss) :
    ∃ c, attr (user ++ lossCallback after loss :: [root]) inst "backward" = some c ∧
      ∀ (kw : Dict String (PyVal V)) (w : GWorld W V), "self" ∉ kw.keys →
        c [] kw w = after (hookOf attrs group (some g.method) .backward kw w) := by
  have hpl : (Dict.keys (lossCallback after loss).fields).Nodup := by
    have : Dict.keys (lossCallback after loss).fields = ["backward", "loss"] := rfl
    rw [this]
    decide +kernel
  have hp1 : Spec.Proper (user ++ lossCallback after loss :: [root]) := by
    intro b hb
    simp only [List.mem_append, List.mem_cons, List.not_mem_nil, or_false] at hb
    rcases hb with hb | rfl | rfl
    · exact hp b hb
    · exact hpl
    · exact root_proper
  obtain ⟨c, e1, e2⟩ := (C136_partial hp1 (loss_introduces after loss) hd hc).2 g hg
  rw [hl] at e2
  have ec : loss = c := Option.some.inj e2
  have happ : user ++ lossCallback after loss :: [root] = (user ++ [lossCallback after loss]) ++ [root] := by simp
  have hd2 : Spec.Distinct (user ++ [lossCallback after loss]) (Spec.hookName .backward)
      ("Callback." ++ Spec.hookName .backward) := by
    intro b hb'
    rcases List.mem_append.1 hb' with hb' | hb'
    · exact ⟨(hd b hb').1, fun f hf => absurd (Dict.mem_keys_of_mem hf) (hb b hb')⟩
    · rw [List.mem_singleton.1 hb']
      refine ⟨by simp [lossCallback], fun f hf => ?_⟩
      simp only [lossCallback, Spec.hookName, List.mem_cons, Prod.mk.injEq, true_and, List.not_mem_nil, or_false] at hf
      rcases hf with rfl | ⟨hf, -⟩
      · exact ⟨rfl, by simp only [Spec.hookName]; decide +kernel⟩
      · exact absurd hf (by decide +kernel)
  have hp2 : Spec.Proper ((user ++ [lossCallback after loss]) ++ [root]) := by rw [← happ]; exact hp1
  have hbk : Spec.Defines (user ++ [lossCallback after loss]) (Spec.hookName .backward)
      ⟨"LossCallback.backward", false, anything, fun b w => after (loss b.rest b.extra w)⟩ :=
    ⟨user, lossCallback after loss, [], rfl, hb, by simp [lossCallback, Spec.hookName]⟩
  rw [happ] at hc
  obtain ⟨c', f1, f2⟩ := (C136_partial hp2 (root_introduces .backward) hd2 hc).2 _ hbk
  have f3 : c' = Method.call ⟨anything, fun b w => after (loss b.rest b.extra w)⟩ := by
    have : wrapMethod attrs group (⟨anything, fun b w => after (loss b.rest b.extra w)⟩ : Method W V) =
        .ok (Method.call ⟨anything, fun b w => after (loss b.rest b.extra w)⟩) := by
      simp [wrapMethod, anything]
    rw [this] at f1
    exact (Except.ok.inj f1).symm
  refine ⟨c', by rw [happ]; exact f2, fun kw w hs => ?_⟩
  have hany : kw.any (fun kv => decide (kv.1 = "self")) = false := by
    rw [List.any_eq_false]
    intro kv hkv
    simp only [decide_eq_true_eq]
    intro he
    exact hs (he ▸ Dict.mem_keys_of_mem (show (kv.1, kv.2) ∈ kw from hkv))
  have hcall : (Method.call ⟨anything, fun b w => after (loss b.rest b.extra w)⟩ [] kw w : HookResult W V) =
      after (loss [] kw w) := by
    unfold Method.call anything Sig.bind
    simp [hany]
  rw [f3, hcall, ec]
  unfold hookOf
  simp only [e1]
  rfl

/-- **C136** as it is wanted: what a class is called does not matter. -/
def C136_claim (W : Type u) (V : Type v) : Prop :=
  ∀ (user : List (Body W V)) (h : Hook), Spec.Proper user →
    (∀ b ∈ user, ∀ kv ∈ b.fields, kv.2.marked = false ∧ kv.2.qualname = b.name ++ "." ++ kv.1) →
    ∀ (attrs : Dict String String) (group : Option String) (inst : Dict String (Call W V)),
      construct attrs group (user ++ [root]) = .ok inst → ∀ g, Spec.Defines user (Spec.hookName h) g →
      ∃ c, attr (user ++ [root]) inst (Spec.hookName h) = some c ∧
        ∀ kw w, c h.positional kw w = hookOf attrs group (some g.method) h kw w

/-! ## Examples -/

namespace Ex

/-- A hook that asks for `x` and returns it as `y`. -/
def give : Method Unit Nat := ⟨⟨["x"], [], ["x"], false, false, []⟩, fun b w =>
  (w, .ok ((Dict.get? b.named "x").map fun v => [("y", v)]))⟩

/-- `class name(Callback): def begin_batch(self, x): ...` -/
def cls (name : String) : Body Unit Nat := ⟨name, false, [("begin_batch", ⟨name ++ ".begin_batch", false, give⟩)]⟩

def mixin : Body Unit Nat := ⟨"LoggingMixin", true, []⟩

/-- What the loop passes: more than the hook asks for. -/
def state : Dict String (PyVal Nat) := [("x", .val 7), ("bp_step", .val 3)]

def world : GWorld Unit Nat := ⟨fun _ => [], ()⟩

def outcome (c : List (Body Unit Nat)) : Option (Except Exc (Option (Dict String (PyVal Nat)))) :=
  match construct [] none (c ++ [root]) with
  | .error _ => none
  | .ok inst => (attr (c ++ [root]) inst "begin_batch").map fun f => (f [] state world).2

theorem named : outcome [⟨"Child", false, []⟩, mixin, cls "Mine"] = some (.ok (some [("y", .val 7)])) := by decide +kernel

/-- `class MyLoss(LossCallback): def loss(self, x): ...` -/
def lossCls : Body Unit Nat := ⟨"MyLoss", false, [("loss", ⟨"MyLoss.loss", false, give⟩)]⟩

/-- its wrapped `loss` -/
def lossCall : Call Unit Nat := callPlain give ["self", "x"] []

def isOk {α : Type} : Except Err α → Bool
  | .ok _ => true
  | .error _ => false

example : ∃ inst c, construct [] none ([lossCls] ++ lossCallback id lossCall :: [root]) = .ok inst ∧
    attr ([lossCls] ++ lossCallback id lossCall :: [root]) inst "backward" = some c ∧
    (c [] state world).2 = .ok (some [("y", .val 7)]) := by
  have h : isOk (construct [] none ([lossCls] ++ lossCallback id lossCall :: [root])) = true := by decide +kernel
  cases hc : construct [] none ([lossCls] ++ lossCallback id lossCall :: [root]) with
  | error e => rw [hc] at h; simp [isOk] at h
  | ok inst =>
    have hp : Spec.Proper [lossCls] := by
      intro b hb
      rw [List.mem_singleton.1 hb]
      simp [lossCls]
    have hd : Spec.Distinct [lossCls] "loss" "LossCallback.loss" := by
      intro b hb
      rw [List.mem_singleton.1 hb]
      refine ⟨by decide +kernel, fun f hf => ?_⟩
      rw [lossCls, List.mem_singleton, Prod.mk.injEq] at hf
      rw [hf.2]
      exact ⟨rfl, by decide +kernel⟩
    have hg : Spec.Defines [lossCls] "loss" ⟨"MyLoss.loss", false, give⟩ :=
      ⟨[], lossCls, [], rfl, by simp, by simp [lossCls]⟩
    have hpl : Spec.Proper ([lossCls] ++ lossCallback id lossCall :: [root]) := by
      intro b hb
      simp only [List.mem_append, List.mem_cons, List.not_mem_nil, or_false] at hb
      rcases hb with rfl | rfl | rfl
      · exact hp _ (by simp)
      · simp [lossCallback, Dict.keys]
      · exact root_proper
    obtain ⟨c, h1, h2⟩ := (C136_partial hpl (loss_introduces id lossCall) hd hc).2 _ hg
    have h3 : lossCall = c := Except.ok.inj ((show wrapMethod [] none give = .ok lossCall from rfl).symm.trans h1)
    rw [← h3] at h2
    obtain ⟨c', h4, h5⟩ := C136_loss_partial hp id lossCall (by
      intro b hb
      rw [List.mem_singleton.1 hb]
      simp [lossCls, Dict.keys]) hd hg hc h2
    refine ⟨inst, c', rfl, h4, ?_⟩
    rw [h5 state world (by decide +kernel)]
    decide +kernel

theorem clash : outcome [cls "Callback"] = some (.error (.error .typeError)) := by decide +kernel

end Ex

/-- **C136** fails: a class that is called `Callback` too gets the whole state and raises. -/
theorem C136_false : ¬ C136_claim Unit Nat := by
  intro h
  have hc : ∃ inst, construct [] none ([Ex.cls "Callback"] ++ [root]) = .ok inst := by
    cases hi : construct [] none ([Ex.cls "Callback"] ++ [root]) with
    | ok inst => exact ⟨inst, rfl⟩
    | error e =>
      have := Ex.clash
      unfold Ex.outcome at this
      rw [hi] at this
      simp at this
  obtain ⟨inst, hc⟩ := hc
  obtain ⟨c, h1, h2⟩ := h [Ex.cls "Callback"] .beginBatch (by
      intro b hb
      rw [List.mem_singleton.1 hb]
      simp [Ex.cls]) (by
      intro b hb kv hkv
      rw [List.mem_singleton.1 hb] at hkv ⊢
      rw [Ex.cls] at hkv
      rw [List.mem_singleton.1 hkv]
      exact ⟨rfl, by decide +kernel⟩) [] none inst hc ⟨"Callback" ++ ".begin_batch", false, Ex.give⟩
      ⟨[], Ex.cls "Callback", [], rfl, by simp, by simp [Ex.cls, Spec.hookName]⟩
  have h3 := Ex.clash
  unfold Ex.outcome at h3
  rw [hc] at h3
  have h1' : attr ([Ex.cls "Callback"] ++ [root]) inst "begin_batch" = some c := h1
  simp only [h1', Option.map_some] at h3
  have h4 := h2 Ex.state Ex.world
  have h5 : (hookOf [] none (some Ex.give) .beginBatch Ex.state Ex.world).2 = .ok (some [("y", .val 7)]) := by decide +kernel
  have h6 : (c [] Ex.state Ex.world).2 = .ok (some [("y", .val 7)]) := by
    have : c [] Ex.state Ex.world = c Hook.beginBatch.positional Ex.state Ex.world := rfl
    rw [this, h4, h5]
  rw [h6] at h3
  simp at h3

end Meta

end Verif
