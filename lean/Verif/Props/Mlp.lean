import Verif.Model.Mlp
import Verif.Props.AgentProxy
import Verif.Props.Policy

/-!
# The built-in networks (C124) and agents that act with them

For all sizes, all parameters, all batches and all drawn numbers.
-/

namespace Verif

namespace Mlp

noncomputable section

/-! ## Specification -/

/-- Output `o` of an affine map. -/
def Spec.unit (l : Linear) (r : List ℝ) (o : Nat) : ℝ := (∑ i : Fin r.length, l.weight o i * r[i]) + l.bias o

/-- An affine map followed by the positive part. -/
def Spec.layer (l : Linear) (r : List ℝ) : List ℝ := List.ofFn fun o : Fin l.outs => max (Spec.unit l r o) 0

/-- Layers one after the other, for one row. -/
def Spec.features (ls : List Linear) (r : List ℝ) : List ℝ := ls.foldl (fun r l => Spec.layer l r) r

/-- A policy with these sizes, whatever its parameters are. -/
structure Spec.Sized (p : GaussNet) (obsDim actionDim : Nat) (hidden : List Nat) : Prop where
  encoder : p.encoder.map (fun l => (l.ins, l.outs)) = List.zip (obsDim :: hidden) hidden
  dim : p.actionDim = actionDim
  mean : hidden.getLast? = some p.mean.ins ∧ p.mean.outs = actionDim
  logStd : hidden.getLast? = some p.logStd.ins ∧ p.logStd.outs = actionDim

/-- Action values with these sizes, whatever the parameters are. -/
structure Spec.QSized (q : QNet) (obsDim actionDim : Nat) (hidden : List Nat) : Prop where
  encoder : q.encoder.map (fun l => (l.ins, l.outs)) = List.zip ((obsDim + actionDim) :: hidden) hidden
  obs : q.obsDim = obsDim
  act : q.actionDim = actionDim
  final : hidden.getLast? = some q.final.ins ∧ q.final.outs = 1

/-! ## Lemmas -/

theorem out_eq (l : Linear) (r : List ℝ) (o : Nat) : l.out r o = Spec.unit l r o := by
  unfold Linear.out Spec.unit
  have : (r.mapIdx fun i v => l.weight o i * v) = List.ofFn fun i : Fin r.length => l.weight o i * r[i] := by
    apply List.ext_getElem <;> simp
  rw [this, List.sum_ofFn]

/-- sizes fit from one layer to the next -/
def Sizes : Nat → List Linear → Nat → Prop
  | o, [], w => o = w
  | o, l :: ls, w => l.ins = o ∧ Sizes l.outs ls w

theorem sizes_of {o h : Nat} {hidden : List Nat} {ls : List Linear} (he : ls.map (fun l => (l.ins, l.outs)) = List.zip (o :: hidden) hidden)
    (hl : (o :: hidden).getLast? = some h) : Sizes o ls h := by
  induction hidden generalizing o ls with
  | nil =>
    simp only [List.zip_nil_right, List.map_eq_nil_iff] at he
    subst he
    simpa [Sizes] using hl
  | cons k ks ih =>
    cases ls with
    | nil => simp at he
    | cons l ls =>
      simp only [List.map_cons, List.zip_cons_cons, List.cons.injEq, Prod.mk.injEq] at he
      refine ⟨he.1.1, ?_⟩
      rw [he.1.2]
      exact ih he.2 (by simpa using hl)

theorem encode_ok {o w : Nat} {ls : List Linear} (hs : Sizes o ls w) (x : Batch) (hx : x.width = o) :
    encode ls x = .ok ⟨w, x.rows.map (Spec.features ls)⟩ := by
  induction ls generalizing o x with
  | nil =>
    simp only [Sizes] at hs
    subst hs hx
    have : Spec.features [] = id := rfl
    rw [encode, this, List.map_id]
  | cons l ls ih =>
    obtain ⟨h1, h2⟩ := hs
    have hf : l.forward x = .ok ⟨l.outs, x.rows.map fun r => List.ofFn fun o : Fin l.outs => l.out r o⟩ := by
      unfold Linear.forward
      rw [if_neg (by rw [hx, h1]; simp)]
    simp only [encode, hf]
    rw [ih h2 _ (by simp [relu])]
    simp only [relu, List.map_map]
    congr 2
    apply List.map_congr_left
    intro r _
    simp only [Function.comp_apply, Spec.features, List.foldl_cons, Spec.layer, List.map_ofFn, out_eq]
    rfl

theorem encode_refuses {o h : Nat} {hs : List Nat} {ls : List Linear}
    (he : ls.map (fun l => (l.ins, l.outs)) = List.zip (o :: h :: hs) (h :: hs)) (x : Batch) (hx : x.width ≠ o) :
    encode ls x = .error .runtimeError := by
  cases ls with
  | nil => simp at he
  | cons l ls =>
    simp only [List.map_cons, List.zip_cons_cons, List.cons.injEq, Prod.mk.injEq] at he
    simp only [encode, Linear.forward, he.1.1, ne_eq, hx, not_false_eq_true, if_true]

/-! ## C124 -/

theorem layers_sizes (o : Nat) (hidden : List Nat) (draws : Nat → Nat → Nat → ℝ) :
    (layers o hidden draws).map (fun l => (l.ins, l.outs)) = List.zip (o :: hidden) hidden := by
  unfold layers
  apply List.ext_getElem?
  intro i
  rw [List.getElem?_map, List.getElem?_mapIdx, Option.map_map]
  have : ((fun l : Linear => (l.ins, l.outs)) ∘ fun io : Nat × Nat => Linear.init io.1 io.2 (draws i)) = id := rfl
  rw [this, Option.map_id, id]

/-- **C124**: networks can be made for all sizes with at least one hidden layer, and for no others. A new policy is in training
mode. -/
theorem C124_made (obsDim actionDim : Nat) (hidden : List Nat) (draws : Nat → Nat → Nat → ℝ) (headDraws : Bool → Nat → Nat → ℝ)
    (finalDraws : Nat → Nat → ℝ) :
    (hidden ≠ [] → (∃ p, GaussNet.new obsDim actionDim hidden draws headDraws = .ok p ∧ p.training = true ∧
        Spec.Sized p obsDim actionDim hidden) ∧
      ∃ q, QNet.new obsDim actionDim hidden draws finalDraws = .ok q ∧ Spec.QSized q obsDim actionDim hidden) ∧
    (hidden = [] → GaussNet.new obsDim actionDim hidden draws headDraws = .error .indexError ∧
      QNet.new obsDim actionDim hidden draws finalDraws = .error .indexError) := by
  refine ⟨fun h => ?_, fun h => by subst h; exact ⟨rfl, rfl⟩⟩
  obtain ⟨l, hl⟩ : ∃ l, hidden.getLast? = some l := ⟨_, List.getLast?_eq_some_getLast h⟩
  constructor
  · refine ⟨⟨true, layers obsDim hidden draws, actionDim, Linear.init l actionDim (headDraws false),
      Linear.init l actionDim (headDraws true)⟩, ?_, rfl, ⟨layers_sizes _ _ _, rfl, ⟨hl, rfl⟩, ⟨hl, rfl⟩⟩⟩
    unfold GaussNet.new
    rw [hl]
  · refine ⟨⟨obsDim, actionDim, layers (obsDim + actionDim) hidden draws, Linear.init l 1 finalDraws⟩, ?_,
      ⟨layers_sizes _ _ _, rfl, rfl, ⟨hl, rfl⟩⟩⟩
    unfold QNet.new
    rw [hl]

/-- **C124**: in a new network all biases are zero, and the weights of the layers are those that were drawn for them. -/
theorem C124_initial {obsDim actionDim : Nat} {hidden : List Nat} {draws : Nat → Nat → Nat → ℝ} {headDraws : Bool → Nat → Nat → ℝ}
    {finalDraws : Nat → Nat → ℝ} {p : GaussNet} {q : QNet} (hp : GaussNet.new obsDim actionDim hidden draws headDraws = .ok p)
    (hq : QNet.new obsDim actionDim hidden draws finalDraws = .ok q) :
    (∀ (i : Nat) l, p.encoder[i]? = some l ∨ q.encoder[i]? = some l → l.weight = draws i ∧ ∀ o, l.bias o = 0) ∧
    (p.mean.weight = headDraws false ∧ p.logStd.weight = headDraws true ∧ q.final.weight = finalDraws) ∧
    ∀ o, p.mean.bias o = 0 ∧ p.logStd.bias o = 0 ∧ q.final.bias o = 0 := by
  have hl : ∀ n (i : Nat) l, (layers n hidden draws)[i]? = some l → l.weight = draws i ∧ ∀ o, l.bias o = 0 := by
    intro n i l h
    unfold layers at h
    rw [List.getElem?_mapIdx, Option.map_eq_some_iff] at h
    obtain ⟨io, _, rfl⟩ := h
    exact ⟨rfl, fun _ => rfl⟩
  unfold GaussNet.new at hp
  unfold QNet.new at hq
  cases hh : hidden.getLast? with
  | none => rw [hh] at hp; cases hp
  | some h =>
    rw [hh] at hp hq
    cases hp
    cases hq
    exact ⟨fun i l h => h.elim (hl _ i l) (hl _ i l), ⟨rfl, rfl, rfl⟩, fun _ => ⟨rfl, rfl, rfl⟩⟩

theorem getLast?_cons_of {o h : Nat} {hidden : List Nat} (hl : hidden.getLast? = some h) : (o :: hidden).getLast? = some h := by
  cases hidden with
  | nil => simp at hl
  | cons k ks => simpa using hl

/-- **C124** (training): row by row, the policy returns the action and the log-probability for the mean and the deviation that
its layers give for this row, and for the numbers drawn for this row. No row depends on another one. -/
theorem C124_policy {p : GaussNet} {obsDim actionDim : Nat} {hidden : List Nat} (hp : Spec.Sized p obsDim actionDim hidden)
    (ht : p.training = true) (noise : Nat → Nat → ℝ) (obs : Batch) (hw : obs.width = obsDim) (epsilon : Option Batch) :
    ∃ sample logp, p.forward noise obs epsilon = .ok (.pair ⟨actionDim, sample⟩ ⟨1, logp⟩) ∧
      sample.length = obs.rows.length ∧ logp.length = obs.rows.length ∧
      ∀ (i : Nat) (row : List ℝ), obs.rows[i]? = some row →
        let act := Policy.trainForward (n := actionDim) (fun o => Spec.unit p.mean (Spec.features p.encoder row) o)
          (fun o => Spec.unit p.logStd (Spec.features p.encoder row) o) (fun o => noise i o)
        sample[i]? = some (List.ofFn act.1) ∧ logp[i]? = some [act.2] := by
  obtain ⟨he, hd, ⟨hm, hmo⟩, ⟨hs, hso⟩⟩ := hp
  have henc := encode_ok (sizes_of he (getLast?_cons_of hm)) obs hw
  have hins : p.logStd.ins = p.mean.ins := by rw [hm] at hs; exact (Option.some.inj hs).symm
  obtain ⟨tr, enc, ad, ⟨mi, mo, mw, mb⟩, ls⟩ := p
  simp only at hd hmo hso hins ht henc
  subst hd hmo ht
  unfold GaussNet.forward
  rw [henc]
  simp only [head, Linear.forward, ne_eq, not_true_eq_false, if_false, hins, if_true, hso]
  refine ⟨_, _, rfl, by simp, by simp, ?_⟩
  intro i row hi
  simp only [List.getElem?_map, List.getElem?_mapIdx, hi, Option.map_some, out_eq, and_self]

/-- **C124** (evaluation): with the noise given by the caller, each row is the action for the mean and deviation of its own row and
its own noise: the same function as in training. Without noise, or with the wrong amount, there is no action. -/
theorem C124_eval {p : GaussNet} {obsDim actionDim : Nat} {hidden : List Nat} (hp : Spec.Sized p obsDim actionDim hidden)
    (ht : p.training = false) (noise : Nat → Nat → ℝ) (obs : Batch) (hw : obs.width = obsDim) :
    p.forward noise obs none = .error .typeError ∧
    ∀ eps : Batch, eps.WF →
      ((eps.width ≠ actionDim ∨ eps.rows.length ≠ obs.rows.length) → p.forward noise obs (some eps) = .error .runtimeError) ∧
      (eps.width = actionDim → eps.rows.length = obs.rows.length →
        ∃ actions, p.forward noise obs (some eps) = .ok (.single ⟨actionDim, actions⟩) ∧ actions.length = obs.rows.length ∧
          ∀ (i : Nat) (row er : List ℝ), obs.rows[i]? = some row → eps.rows[i]? = some er →
            ∃ e : Fin actionDim → ℝ, er = List.ofFn e ∧
              actions[i]? = some (List.ofFn (Policy.trainForward
                (fun o : Fin actionDim => Spec.unit p.mean (Spec.features p.encoder row) o)
                (fun o => Spec.unit p.logStd (Spec.features p.encoder row) o) e).1)) := by
  obtain ⟨he, hd, ⟨hm, hmo⟩, ⟨hs, hso⟩⟩ := hp
  subst hd
  have henc := encode_ok (sizes_of he (getLast?_cons_of hm)) obs hw
  have hins : p.logStd.ins = p.mean.ins := by rw [hm] at hs; exact (Option.some.inj hs).symm
  unfold GaussNet.forward
  rw [henc]
  simp only [head, Linear.forward, ne_eq, not_true_eq_false, if_false, hins, ht, Bool.false_eq_true, hmo, hso, List.length_map,
    false_or, true_and]
  intro eps hwf
  refine ⟨fun h => by rw [if_pos h], fun h1 h2 => ?_⟩
  rw [if_neg (by simp [h1, h2])]
  refine ⟨_, rfl, by simp [h2], fun i row er hi hei => ?_⟩
  have hlen : er.length = p.actionDim := by rw [← h1]; exact hwf er (List.mem_of_getElem? hei)
  refine ⟨fun o => er[o], ?_, ?_⟩
  · apply List.ext_getElem <;> simp [hlen]
  · simp only [List.getElem?_zipWith, List.getElem?_map, hi, hei, Option.map_some, Option.some.injEq]
    apply List.ext_getElem
    · simp [hlen]
    · intro j j1 j2
      simp [Policy.trainForward, out_eq]

/-- **C124**: observations of another width are refused by both networks, in both modes. -/
theorem C124_refuses {p : GaussNet} {obsDim actionDim : Nat} {hidden : List Nat} (hp : Spec.Sized p obsDim actionDim hidden)
    (noise : Nat → Nat → ℝ) (obs : Batch) (hw : obs.width ≠ obsDim) (epsilon : Option Batch) :
    p.forward noise obs epsilon = .error .runtimeError := by
  have hne : hidden ≠ [] := by rintro rfl; simpa using hp.mean.1
  obtain ⟨h, hs, rfl⟩ := List.exists_cons_of_ne_nil hne
  unfold GaussNet.forward
  rw [encode_refuses hp.encoder obs hw]

/-- **C124** (action values): one value for each row, from its own observation followed by its own action; and sizes that do not
fit are refused. -/
theorem C124_values {q : QNet} {obsDim actionDim : Nat} {hidden : List Nat} (hq : Spec.QSized q obsDim actionDim hidden)
    (action obs : Batch) :
    (¬ (obs.width = obsDim ∧ action.width = actionDim ∧ obs.rows.length = action.rows.length) →
      q.forward action obs = .error .assertionError) ∧
    (obs.width = obsDim → action.width = actionDim → obs.rows.length = action.rows.length →
      ∃ values, q.forward action obs = .ok ⟨1, values⟩ ∧ values.length = obs.rows.length ∧
        ∀ (i : Nat) (o a : List ℝ), obs.rows[i]? = some o → action.rows[i]? = some a →
          values[i]? = some [Spec.unit q.final (Spec.features q.encoder (o ++ a)) 0]) := by
  obtain ⟨he, ho, ha, ⟨hf, hfo⟩⟩ := hq
  subst ho ha
  unfold QNet.forward
  refine ⟨fun h => ?_, fun h1 h2 h3 => ?_⟩
  · by_cases c1 : obs.rows.length = action.rows.length
    · rw [if_neg (by simpa using c1)]
      by_cases c2 : obs.width = q.obsDim
      · rw [if_neg (by simpa using c2), if_pos (fun c3 => h ⟨c2, c3, c1⟩)]
      · rw [if_pos c2]
    · rw [if_pos c1]
  · rw [if_neg (by simpa using h3), if_neg (by simpa using h1), if_neg (by simpa using h2),
      encode_ok (sizes_of he (getLast?_cons_of hf)) _ (by simp [h1, h2])]
    simp only [Linear.forward, ne_eq, not_true_eq_false, if_false, hfo]
    refine ⟨_, rfl, by simp [h3], fun i o a hi hai => ?_⟩
    simp only [List.getElem?_map, List.getElem?_zipWith, hi, hai, Option.map_some, Option.some.injEq]
    apply List.ext_getElem
    · simp [hfo]
    · intro j j1 j2
      have : j = 0 := by simpa [hfo] using j1
      subst this
      simp [out_eq]

/-- C124: a critic behind a shared encoder that makes row `f r` of each row `r`: one value per row, from the encoded observation of
this row followed by its own action; the encoder is asked first, and if it fails, so does the critic. -/
theorem C124_shared {q : QNet} {width actionDim : Nat} {hidden : List Nat} (hq : Spec.QSized q width actionDim hidden)
    (enc : Batch → Except Err Batch) (action obs : Batch) :
    (∀ e, enc obs = .error e → sharedForward enc q action obs = .error e) ∧
    (∀ f : List ℝ → List ℝ, enc obs = .ok ⟨width, obs.rows.map f⟩ → action.width = actionDim →
      obs.rows.length = action.rows.length →
      ∃ values, sharedForward enc q action obs = .ok ⟨1, values⟩ ∧ values.length = obs.rows.length ∧
        ∀ (i : Nat) (o a : List ℝ), obs.rows[i]? = some o → action.rows[i]? = some a →
          values[i]? = some [Spec.unit q.final (Spec.features q.encoder (f o ++ a)) 0]) := by
  refine ⟨fun e h => ?_, fun f h h1 h2 => ?_⟩
  · unfold sharedForward; rw [h]
  · obtain ⟨values, h3, h4, h5⟩ := (C124_values hq action ⟨width, obs.rows.map f⟩).2 rfl h1 (by simpa using h2)
    refine ⟨values, ?_, by simpa using h4, fun i o a ho ha => h5 i (f o) a ?_ ha⟩
    · unfold sharedForward; rw [h]; exact h3
    · simp [List.getElem?_map, ho]

/-! ## Agents -/

/-- what the agent at place `i` gets from the policy -/
def answer (p : GaussNet) (actionDim : Nat) (noise : Nat → Nat → ℝ) (i : Nat) (row : List ℝ) : (Fin actionDim → ℝ) × ℝ :=
  Policy.trainForward (fun o => Spec.unit p.mean (Spec.features p.encoder row) o)
    (fun o => Spec.unit p.logStd (Spec.features p.encoder row) o) (fun o => noise i o)

theorem agent_drawing {p : GaussNet} {obsDim actionDim : Nat} {hidden : List Nat} (hp : Spec.Sized p obsDim actionDim hidden)
    (ht : p.training = true) (noise : Nat → Nat → ℝ) (f : List (Option (List (List ℝ))) → Except Err (List (List (List ℝ))))
    (key : String) (hf : (agentOf p noise key).policy = .logprobs f) (n : Nat) (hn : 0 < n) :
    Agent.Spec.Drawing f (fun own => ∃ r, own = [r] ∧ r.length = obsDim)
      (fun i own => [(own.map fun r => List.ofFn (answer p actionDim noise i r).1).flatten,
        (own.map fun r => [(answer p actionDim noise i r).2]).flatten]) n 2 := by
  refine ⟨fun i r => rfl, fun m rows hl hm hok => ?_⟩
  simp only [agentOf, Agent.Policy.logprobs.injEq] at hf
  have hrows : ∃ col : List (List ℝ), rows = col.map ([·]) ∧ ∀ r ∈ col, r.length = obsDim := by
    clear hl hm
    induction rows with
    | nil => exact ⟨[], rfl, by simp⟩
    | cons x xs ih =>
      obtain ⟨col, h1, h2⟩ := ih fun r hr => hok r (List.mem_cons_of_mem _ hr)
      obtain ⟨r, h3, h4⟩ := hok x (by simp)
      exact ⟨r :: col, by rw [h1, h3]; rfl, by simpa using ⟨h4, h2⟩⟩
  obtain ⟨col, rfl, hcol⟩ := hrows
  obtain ⟨c, cs, rfl⟩ : ∃ c cs, col = c :: cs := List.exists_cons_of_ne_nil (by rintro rfl; simp at hl; omega)
  have hm1 : m = 1 := by have := hm [c] (by simp); simpa using this.symm
  subst hm1
  have hcols : (Agent.Spec.columns ((c :: cs).map ([·])) 1).map some = [some (c :: cs)] := by
    simp [Agent.Spec.columns, List.range_succ, List.filterMap_map, Function.comp_def]
  have hst : stack (c :: cs) = .ok ⟨obsDim, c :: cs⟩ := by
    have hc := hcol c (by simp)
    rw [stack, if_pos (by simp only [List.all_eq_true, beq_iff_eq]; intro x hx; rw [hcol x (by simp [hx]), hc]), hc]
  obtain ⟨sample, logp, h1, h2, h3, h4⟩ := C124_policy hp ht noise ⟨obsDim, c :: cs⟩ rfl none
  rw [hcols, ← hf]
  simp only [hst, h1]
  have hs : sample = (c :: cs).mapIdx fun i r => List.ofFn (answer p actionDim noise i r).1 := by
    apply List.ext_getElem?
    intro i
    rw [List.getElem?_mapIdx]
    by_cases hi : i < (c :: cs).length
    · rw [List.getElem?_eq_getElem hi]
      exact (h4 i _ (List.getElem?_eq_getElem hi)).1
    · rw [List.getElem?_eq_none (by rw [h2]; exact Nat.le_of_not_lt hi), List.getElem?_eq_none (Nat.le_of_not_lt hi)]; rfl
  have hlp : logp = (c :: cs).mapIdx fun i r => [(answer p actionDim noise i r).2] := by
    apply List.ext_getElem?
    intro i
    rw [List.getElem?_mapIdx]
    by_cases hi : i < (c :: cs).length
    · rw [List.getElem?_eq_getElem hi]
      exact (h4 i _ (List.getElem?_eq_getElem hi)).2
    · rw [List.getElem?_eq_none (by rw [h3]; exact Nat.le_of_not_lt hi), List.getElem?_eq_none (Nat.le_of_not_lt hi)]; rfl
  rw [hs, hlp]
  congr 1
  have hfm : ∀ (l : List (List ℝ)) (F : Nat → List ℝ → List (List ℝ)) (j : Nat) (G : Nat → List ℝ → List ℝ),
      (∀ i r, (F i r)[j]? = some (G i r)) → (l.mapIdx F).filterMap (fun x => x[j]?) = l.mapIdx G := by
    intro l F j G h
    induction l generalizing F G with
    | nil => rfl
    | cons x xs ih =>
      rw [List.mapIdx_cons, List.mapIdx_cons, List.filterMap_cons, h 0 x]
      simp only
      rw [ih _ _ fun i r => h (i + 1) r]
  have hmi : ∀ (l : List (List ℝ)) (F : Nat → List (List ℝ) → List (List ℝ)), (l.map ([·])).mapIdx F = l.mapIdx fun i r => F i [r] := by
    intro l F
    apply List.ext_getElem?
    intro i
    simp [Function.comp_def]
  rw [hmi]
  simp only [Agent.Spec.columns, List.range_succ, List.range_zero, List.nil_append, List.cons_append, List.map_cons, List.map_nil]
  rw [hfm _ _ 0 (fun i r => List.ofFn (answer p actionDim noise i r).1) (fun i r => by simp),
    hfm _ _ 1 (fun i r => [(answer p actionDim noise i r).2]) (fun i r => by simp)]

/-- **C124** (agents): every agent that goes on gets the action of the policy for its own observation and for numbers drawn for it
alone: for those of its place in the batch. It does not matter which other agents there are. -/
theorem C124_agents {p : GaussNet} {obsDim actionDim : Nat} {hidden : List Nat} (hp : Spec.Sized p obsDim actionDim hidden)
    (ht : p.training = true) (noise : Nat → Nat → ℝ) (key : String) {M : Type} (observations : Dict Int (Obs (List ℝ) M))
    (hn : (Dict.keys observations).Nodup) (hact : ∃ a o, Dict.get? observations a = some o ∧ Agent.Spec.goesOn o)
    (hk : ∀ a o, Dict.get? observations a = some o → Agent.Spec.goesOn o → ∃ row, Dict.get? o.arrays key = some row ∧ row.length = obsDim) :
    ∃ r, (agentOf p noise key).call observations = .ok r ∧ (Dict.keys r).Sublist (Dict.keys observations) ∧
      ∀ a o, Dict.get? observations a = some o →
        (¬ Agent.Spec.goesOn o → a ∉ Dict.keys r) ∧
        (Agent.Spec.goesOn o → ∃ (i : Nat) (row : List ℝ), (Agent.active observations)[i]? = some a ∧ Dict.get? o.arrays key = some row ∧
          Dict.get? r a = some ⟨[("actions", List.ofFn (Policy.trainForward (n := actionDim)
            (fun o => Spec.unit p.mean (Spec.features p.encoder row) o) (fun o => Spec.unit p.logStd (Spec.features p.encoder row) o)
            (fun o => noise i o)).1)], []⟩) := by
  obtain ⟨a0, o0, h0, hg0⟩ := hact
  have hne : observations ≠ [] := by rintro rfl; simp [Dict.get?] at h0
  have hpos : 0 < (Agent.active observations).length := by
    apply List.length_pos_of_mem (a := a0)
    exact List.mem_map.mpr ⟨(a0, o0), List.mem_filter.mpr ⟨Dict.mem_of_get? h0, by simpa using (Agent.isActive_iff _).mpr hg0⟩, rfl⟩
  obtain ⟨r, h1, h2, h3⟩ := Agent.C68_drawing (agentOf p noise key) _ rfl observations hn hne (by simp [agentOf]) (by simp [agentOf])
    (by
      intro a o ha hgo k hk'
      simp only [agentOf, List.mem_singleton] at hk'
      subst hk'
      obtain ⟨row, hr, -⟩ := hk a o ha hgo
      exact Dict.mem_keys_of_get? hr)
    (fun own => ∃ r, own = [r] ∧ r.length = obsDim)
    (by
      intro a o ha hgo own hown
      obtain ⟨row, hr, hl⟩ := hk a o ha hgo
      simp only [agentOf, List.map_cons, List.map_nil, hr] at hown
      match own, hown with
      | [x], hown => exact ⟨x, rfl, by simp at hown; rw [hown]; exact hl⟩)
    _ 2 (agent_drawing hp ht noise _ key rfl _ hpos) (by simp [agentOf])
  refine ⟨r, h1, h2, fun a o ha => ⟨(h3 a o ha).1, fun hgo => ?_⟩⟩
  obtain ⟨i, own, hi, hown, hr⟩ := (h3 a o ha).2 hgo
  obtain ⟨row, hrow, hl⟩ := hk a o ha hgo
  have : own = [row] := by
    simp only [agentOf, List.map_cons, List.map_nil, hrow] at hown
    match own, hown with
    | [x], hown => simp at hown; rw [hown]
  subst this
  refine ⟨i, row, hi, hrow, ?_⟩
  rw [hr]
  simp [agentOf, Agent.Spec.noLogprobs, answer]

/-- If all agents have ended there is nothing to stack, and the call fails. -/
theorem C124_nobody (p : GaussNet) (noise : Nat → Nat → ℝ) (key : String) {M : Type} (observations : Dict Int (Obs (List ℝ) M))
    (hn : (Dict.keys observations).Nodup) (hne : observations ≠ [])
    (hend : ∀ a o, Dict.get? observations a = some o → ¬ Agent.Spec.goesOn o) :
    (agentOf p noise key).call observations = .error .runtimeError := by
  have hact : Agent.active observations = [] := by
    simp only [Agent.active, Dict.keys, List.map_eq_nil_iff, List.filter_eq_nil_iff]
    intro x hx hact
    exact hend x.1 x.2 (Dict.get?_of_mem hn hx) ((Agent.isActive_iff _).mp hact)
  have hlen : observations.length ≠ 0 := fun h => hne (List.eq_nil_of_length_eq_zero h)
  unfold Agent.Agent.call
  rw [if_neg hlen, hact]
  simp [agentOf, Agent.inputs, Agent.gather, Agent.Agent.outputs, stack]

/-! ## Concrete cases -/

/-- two inputs and one action, one hidden unit, all weights 1, all biases 0 -/
def ones : QNet := ⟨2, 1, layers 3 [1] fun _ _ _ => 1, Linear.init 1 1 fun _ _ => 1⟩

theorem ones_sized : Spec.QSized ones 2 1 [1] := ⟨layers_sizes _ _ _, rfl, rfl, ⟨rfl, rfl⟩⟩

example : QNet.new 2 1 [1] (fun _ _ _ => 1) (fun _ _ => 1) = .ok ones := rfl

example : ones.forward ⟨1, [[3], [-9]]⟩ ⟨2, [[1, 2], [4, 3]]⟩ = .ok ⟨1, [[6], [0]]⟩ := by
  obtain ⟨values, h1, h2, h3⟩ := (C124_values ones_sized ⟨1, [[3], [-9]]⟩ ⟨2, [[1, 2], [4, 3]]⟩).2 rfl rfl rfl
  have e0 := h3 0 _ _ rfl rfl
  have e1 := h3 1 _ _ rfl rfl
  have hv : values = [[6], [0]] := by
    match values, h2, e0, e1 with
    | [a, b], _, e0, e1 =>
      simp [← out_eq, Linear.out, Spec.features, ones, layers, Spec.layer, Linear.init, List.mapIdx_cons] at e0 e1
      rw [e0, e1]
      norm_num
  rw [h1, hv]

/-- an encoder of one input that gives it twice -/
example : ∃ values, sharedForward (fun b => .ok ⟨2, b.rows.map fun r => r ++ r⟩) ones ⟨1, [[3], [-9]]⟩ ⟨1, [[1], [4]]⟩ = .ok ⟨1, values⟩ ∧
    values[0]? = some [5] := by
  obtain ⟨values, h1, -, h3⟩ := (C124_shared ones_sized (fun b => .ok ⟨2, b.rows.map fun r => r ++ r⟩) ⟨1, [[3], [-9]]⟩
    ⟨1, [[1], [4]]⟩).2 (fun r => r ++ r) rfl rfl rfl
  refine ⟨values, h1, ?_⟩
  rw [h3 0 _ _ rfl rfl]
  simp [← out_eq, Linear.out, Spec.features, ones, layers, Spec.layer, Linear.init, List.mapIdx_cons]
  norm_num

/-- one input, two hidden layers, one action, all weights 1 -/
def small : GaussNet := ⟨true, layers 1 [2, 1] fun _ _ _ => 1, 1, Linear.init 1 1 fun _ _ => 1, Linear.init 1 1 fun _ _ => 0⟩

theorem small_sized : Spec.Sized small 1 1 [2, 1] := ⟨layers_sizes _ _ _, rfl, ⟨rfl, rfl⟩, ⟨rfl, rfl⟩⟩

/-- the features of 3 are 6 = 3 + 3; without noise the action for 3 is tanh 5, as the mean is limited to 5 -/
example : ∃ logp, small.forward (fun _ _ => 0) ⟨1, [[3], [-1]]⟩ none = .ok (.pair ⟨1, [[Real.tanh 5], [0]]⟩ ⟨1, logp⟩) := by
  obtain ⟨sample, logp, h1, h2, h3, h4⟩ := C124_policy small_sized rfl (fun _ _ => 0) ⟨1, [[3], [-1]]⟩ rfl none
  have e0 := (h4 0 _ rfl).1
  have e1 := (h4 1 _ rfl).1
  have hv : sample = [[Real.tanh 5], [0]] := by
    match sample, h2, e0, e1 with
    | [a, b], _, e0, e1 =>
      simp [← out_eq, Linear.out, Spec.features, small, layers, Spec.layer, Linear.init, List.mapIdx_cons, Policy.trainForward,
        Policy.mean, Policy.clamp] at e0 e1
      rw [e0, e1]
      norm_num
  exact ⟨logp, by rw [h1, hv]⟩

def crowd : Dict Int (Obs (List ℝ) Unit) :=
  [(4, ⟨[], .initial, [("obs", [1])], none⟩), (5, ⟨[], .terminal, [], none⟩), (2, ⟨[], .running, [("obs", [2])], none⟩)]

example (noise : Nat → Nat → ℝ) : ∃ r, (agentOf small noise "obs").call crowd = .ok r ∧ Dict.keys r = [4, 2] := by
  obtain ⟨r, h1, h2, h3⟩ := C124_agents small_sized rfl noise "obs" crowd (by decide) ⟨4, _, rfl, by simp [Agent.Spec.goesOn]⟩ (by
    intro a o h hgo
    have := Dict.mem_of_get? h
    simp only [crowd, List.mem_cons, Prod.mk.injEq, List.not_mem_nil, or_false] at this
    rcases this with ⟨rfl, rfl⟩ | ⟨rfl, rfl⟩ | ⟨rfl, rfl⟩
    · exact ⟨_, rfl, rfl⟩
    · exact absurd rfl hgo.1
    · exact ⟨_, rfl, rfl⟩)
  refine ⟨r, h1, ?_⟩
  have k5 := (h3 5 _ rfl).1 (by simp [Agent.Spec.goesOn])
  obtain ⟨_, _, -, -, g4⟩ := (h3 4 _ rfl).2 (by simp [Agent.Spec.goesOn])
  obtain ⟨_, _, -, -, g2⟩ := (h3 2 _ rfl).2 (by simp [Agent.Spec.goesOn])
  have m4 := Dict.mem_keys_of_get? g4
  have m2 := Dict.mem_keys_of_get? g2
  have hk : Dict.keys crowd = [4, 5, 2] := rfl
  rw [hk] at h2
  generalize Dict.keys r = ks at *
  cases h2 with
  | cons _ h => exact absurd (h.subset m4) (by decide)
  | cons_cons _ h =>
    cases h with
    | cons_cons _ h => exact absurd (by simp) k5
    | cons _ h =>
      cases h with
      | cons _ h => simp at h; subst h; exact absurd m2 (by decide)
      | cons_cons _ h => simp at h; subst h; rfl

end

end Mlp

end Verif
