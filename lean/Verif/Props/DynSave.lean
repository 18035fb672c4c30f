import Verif.Model.DynSave
import Verif.Props.Dynamics

/-!
# A dynamics model that is saved and loaded (C118)
-/

namespace Verif

namespace DynSave

open Dyn

variable {d : Nat} {α ο : Type} {learned : Bool} {Θ Φ : Type}

/-- C118 for a file, as a user would put it: a trained model that is saved, and loaded into a model that was constructed in
the same way, predicts what the saved one predicts. (Both have the same `obs_process_fn`; every batch has two rows.) -/
def C118_file_claim : Prop :=
  ∀ (N : Nets 1 (Fin 0) (Fin 1) false Unit Unit) (noDelta : List Int) (w0 w1 : Unit)
    (xs : List (List (Transition 1 (Fin 0)) × Unit × Unit)) (w : Wrapped 1 (Fin 0) (Fin 1) false Unit Unit),
    (∀ x ∈ xs, 2 ≤ x.1.length) → (Wrapped.new noDelta w0 ()).trainAll N xs = .ok w →
    ∀ action obs, ((Wrapped.new noDelta w1 ()).load w.save).sample N action obs = w.sample N action obs

/-- C118 for a checkpoint: the same with the state of the loss. -/
def C118_checkpoint_claim : Prop :=
  ∀ (N : Nets 1 (Fin 0) (Fin 1) false Unit Unit) (noDelta : List Int) (w0 w1 : Unit)
    (xs : List (List (Transition 1 (Fin 0)) × Unit × Unit)) (w : Wrapped 1 (Fin 0) (Fin 1) false Unit Unit),
    (∀ x ∈ xs, 2 ≤ x.1.length) → (Wrapped.new noDelta w0 ()).trainAll N xs = .ok w →
    ∀ action obs, ((Wrapped.new noDelta w1 ()).loadStateDict w.stateDict).sample N action obs = w.sample N action obs

/-- Networks whose output is always 0: the prediction is the average change. -/
noncomputable def zero : Nets 1 (Fin 0) (Fin 1) false Unit Unit := ⟨fun _ _ _ => some 0, fun _ o => o⟩

/-- Two transitions in which the observation goes up by 1. -/
noncomputable def up : List (Transition 1 (Fin 0)) := [⟨fun _ => 0, fun _ => 1, Fin.elim0, 0⟩, ⟨fun _ => 2, fun _ => 3, Fin.elim0, 0⟩]

theorem trained : ∃ w, (Wrapped.new [] () ()).trainAll zero [(up, (), ())] = .ok w ∧
    w.sample zero Fin.elim0 (fun _ => 5) = .ok (fun _ => some 6, Fin.elim0) := by
  refine ⟨_, rfl, ?_⟩
  have hm : Dyn.mean [(1 : ℝ) - 0, 3 - 2] = some 1 := by simp only [Dyn.mean, List.length]; norm_num
  have hs : Dyn.std [(1 : ℝ) - 0, 3 - 2] = some 0 := by
    simp only [Dyn.std, List.length]
    norm_num
  simp only [Wrapped.sample, Model.sample, Wrapped.model, Wrapped.new, up, List.map, List.zipWith, Normalizer.update,
    Normalizer.new, Normalizer.denormalize, zero, override, Sum.elim_inl]
  rw [hm, hs]
  congr 1
  refine Prod.ext ?_ (funext fun i => i.elim0)
  funext i
  have he : floorStd (some 0) = some eps := by
    simp only [floorStd, eps]; norm_num
  simp only [he, Num.mul, Num.add, Num.map₂]
  norm_num

theorem fresh (w1 : Unit) : (Wrapped.new [] w1 ()).sample zero Fin.elim0 (fun _ => 5) = .ok (fun _ => some 5, Fin.elim0) := by
  simp only [Wrapped.sample, Model.sample, Wrapped.model, Wrapped.new, Normalizer.new, Normalizer.denormalize, zero, override]
  congr 1
  refine Prod.ext ?_ (funext fun i => i.elim0)
  funext i
  simp only [Num.add, Num.map₂]
  norm_num

theorem different : (Except.ok (fun _ => some 5, Fin.elim0) : Except Err (Row (Fin 1) Num × Row (Fin 0) Num)) ≠
    .ok (fun _ => some 6, Fin.elim0) := by
  intro h
  have := congrFun (congrArg Prod.fst (Except.ok.inj h)) 0
  have := Option.some.inj this
  norm_num at this

/-- C118 is false for files: the average and spread of the inputs and targets are not in the file. A model that has learned
that the observation goes up by 1 predicts 6 after 5; the loaded one predicts 5. -/
theorem C118_file_false : ¬ C118_file_claim := by
  intro h
  obtain ⟨w, hw, hs⟩ := trained
  have := h zero [] () () [(up, (), ())] w (by simp [up]) hw Fin.elim0 (fun _ => 5)
  rw [hs] at this
  exact different ((fresh _).symm.trans this)

/-- C118 is false for checkpoints in the same way. -/
theorem C118_checkpoint_false : ¬ C118_checkpoint_claim := by
  intro h
  obtain ⟨w, hw, hs⟩ := trained
  have := h zero [] () () [(up, (), ())] w (by simp [up]) hw Fin.elim0 (fun _ => 5)
  rw [hs] at this
  exact different ((fresh _).symm.trans this)

/-! ### What holds -/

/-- C118, a part that holds: the networks are restored. A model with the same normalisers as the saved one (that is, one that
saw the same batches, or the same object) predicts what the saved one predicts. Missing: any other model. -/
theorem C118_partial (N : Nets d α ο learned Θ Φ) (w v : Wrapped d α ο learned Θ Φ) (hd : v.noDelta = w.noDelta)
    (hi : v.input = w.input) (ht : v.target = w.target) (action : Row α ℝ) (obs : Row (Fin d) ℝ) :
    (v.loadStateDict w.stateDict).sample N action obs = w.sample N action obs ∧
    (v.front = w.front → (v.load w.save).sample N action obs = w.sample N action obs) := by
  obtain ⟨a, b, c, e, f⟩ := v
  obtain ⟨a', b', c', e', f'⟩ := w
  obtain rfl : a = a' := hd
  obtain rfl : e = e' := hi
  obtain rfl : f = f' := ht
  refine ⟨rfl, ?_⟩
  intro h
  obtain rfl : c = c' := h
  rfl

/-- In column `i` the normaliser subtracts `m` and divides by `s`. -/
def Spec.At {ι : Type} (n : Normalizer ι) (i : ι) (m s : ℝ) : Prop := ∀ v : ℝ, n.normalize (fun _ => some v) i = some ((v - m) / s) ∧
  n.denormalize (fun _ => some v) i = some (s * v + m)

/-- The numbers of a column -/
def Has {ι : Type} (n : Normalizer ι) (i : ι) (m s : ℝ) : Prop :=
  ∃ ms ss, n.stats = some (ms, ss) ∧ ms i = some m ∧ ss i = some s ∧ 0 < s

theorem Has.at {ι : Type} {n : Normalizer ι} {i : ι} {m s : ℝ} (h : Has n i m s) : Spec.At n i m s := by
  obtain ⟨ms, ss, h1, h2, h3, h4⟩ := h
  intro v
  simp only [Normalizer.normalize, Normalizer.denormalize, h1, h2, h3, Num.sub, Num.div, Num.mul, Num.add, Num.map₂, if_neg h4.ne',
    and_self]

theorem floor_pos (s : ℝ) : ∃ x, floorStd (some s) = some x ∧ x = max s eps := by
  simp only [floorStd]
  by_cases h : s < eps
  · exact ⟨eps, by rw [if_pos h], (max_eq_right h.le).symm⟩
  · exact ⟨s, by rw [if_neg h], (max_eq_left (not_lt.mp h)).symm⟩

theorem eps_pos : 0 < eps := by simp only [eps]; positivity

theorem column_mean {ι : Type} (b : List (Row ι ℝ)) (hb : 2 ≤ b.length) (i : ι) : ∃ x, Dyn.mean (b.map fun row => row i) = some x := by
  rw [Dyn.mean, if_neg (by rw [List.length_map]; omega)]; exact ⟨_, rfl⟩

theorem column_std {ι : Type} (b : List (Row ι ℝ)) (hb : 2 ≤ b.length) (i : ι) : ∃ x, Dyn.std (b.map fun row => row i) = some x := by
  rw [Dyn.std, if_neg (by rw [List.length_map]; omega)]; exact ⟨_, rfl⟩

/-- After a batch of two rows or more there are numbers. -/
theorem has_update {ι : Type} (n : Normalizer ι) (hn : Dyn.Healthy n) (b : List (Row ι ℝ)) (hb : 2 ≤ b.length) (i : ι) :
    ∃ m s, Has (n.update b) i m s := by
  have h := healthy_update n hn b hb
  cases hs : (n.update b).stats with
  | none => simp [Normalizer.update] at hs
  | some p =>
    obtain ⟨⟨x, hx⟩, y, hy, hy'⟩ := h p.1 p.2 hs i
    exact ⟨x, y, p.1, p.2, hs, hx, hy, lt_of_lt_of_le (by positivity) hy'⟩

/-- Two normalisers with the same rate come closer to each other with a common batch. -/
theorem closer {ι : Type} {n n' : Normalizer ι} {i : ι} {m s m' s' : ℝ} (h : Has n i m s) (h' : Has n' i m' s')
    (hr : n.rate = 1 / 100) (hr' : n'.rate = 1 / 100) (b : List (Row ι ℝ)) (hb : 2 ≤ b.length) :
    ∃ M S M' S', Has (n.update b) i M S ∧ Has (n'.update b) i M' S' ∧ |M - M'| = 99 / 100 * |m - m'| ∧
      |S - S'| ≤ 99 / 100 * |s - s'| := by
  obtain ⟨ms, ss, h1, h2, h3, h4⟩ := h
  obtain ⟨ms', ss', h1', h2', h3', h4'⟩ := h'
  obtain ⟨bm, hbm⟩ := column_mean b hb i
  obtain ⟨bs, hbs⟩ := column_std b hb i
  obtain ⟨x, hx, hx'⟩ := floor_pos ((1 - n.rate) * s + n.rate * bs)
  obtain ⟨y, hy, hy'⟩ := floor_pos ((1 - n'.rate) * s' + n'.rate * bs)
  have e := eps_pos
  refine ⟨(1 - n.rate) * m + n.rate * bm, x, (1 - n'.rate) * m' + n'.rate * bm, y, ?_, ?_, ?_, ?_⟩
  · refine ⟨_, _, (by simp only [Normalizer.update, h1]; rfl), ?_, ?_, by rw [hx']; exact lt_max_of_lt_right e⟩
    · simp only [h2, hbm, Num.mul, Num.add, Num.map₂]
    · simp only [h3, hbs, Num.mul, Num.add, Num.map₂, hx]
  · refine ⟨_, _, (by simp only [Normalizer.update, h1']; rfl), ?_, ?_, by rw [hy']; exact lt_max_of_lt_right e⟩
    · simp only [h2', hbm, Num.mul, Num.add, Num.map₂]
    · simp only [h3', hbs, Num.mul, Num.add, Num.map₂, hy]
  · rw [hr, hr', show (1 - 1 / 100) * m + 1 / 100 * bm - ((1 - 1 / 100) * m' + 1 / 100 * bm) = 99 / 100 * (m - m') by ring, abs_mul]
    norm_num
  · rw [hx', hy']
    refine (abs_max_sub_max_le_abs _ _ _).trans ?_
    rw [hr, hr', show (1 - 1 / 100) * s + 1 / 100 * bs - ((1 - 1 / 100) * s' + 1 / 100 * bs) = 99 / 100 * (s - s') by ring, abs_mul]
    norm_num

theorem rate_late {ι : Type} (batches : List (List (Row ι ℝ))) (h : 49 ≤ batches.length) : (after batches).rate = 1 / 100 := by
  rw [C65_rate]
  apply max_eq_right
  have : (49 : ℝ) ≤ batches.length := by exact_mod_cast h
  linarith

theorem has_after {ι : Type} (batches : List (List (Row ι ℝ))) (h2 : ∀ b ∈ batches, 2 ≤ b.length) (hne : batches ≠ []) (i : ι) :
    ∃ m s, Has (after batches) i m s := by
  rcases List.eq_nil_or_concat batches with rfl | ⟨bs, b, rfl⟩
  · exact absurd rfl hne
  · rw [List.concat_eq_append] at h2 ⊢
    rw [after_snoc]
    exact has_update _ (healthy_after bs fun b hb => h2 b (by simp [hb])) b (h2 b (by simp)) i

/-- The distance of two normalisers after common batches. -/
theorem closer_all {ι : Type} (old early later : List (List (Row ι ℝ))) (h2 : ∀ b ∈ old ++ early ++ later, 2 ≤ b.length)
    (he : 49 ≤ early.length) (i : ι) :
    ∃ m s m' s' M S M' S', Has (after (old ++ early)) i m s ∧ Has (after early) i m' s' ∧
      Has (after (old ++ early ++ later)) i M S ∧ Has (after (early ++ later)) i M' S' ∧
      |M - M'| ≤ (99 / 100) ^ later.length * |m - m'| ∧ |S - S'| ≤ (99 / 100) ^ later.length * |s - s'| := by
  have hne : early ≠ [] := by rintro rfl; simp at he
  obtain ⟨m, s, h⟩ := has_after (old ++ early) (fun b hb => h2 b (by simp only [List.mem_append] at hb ⊢; tauto)) (by simp [hne]) i
  obtain ⟨m', s', h'⟩ := has_after early (fun b hb => h2 b (by simp only [List.mem_append]; tauto)) hne i
  refine ⟨m, s, m', s', ?_⟩
  induction later using List.reverseRecOn with
  | nil => exact ⟨m, s, m', s', h, h', by simpa using h, by simpa using h', by simp, by simp⟩
  | append_singleton later b ih =>
    obtain ⟨M, S, M', S', -, -, g3, g4, g5, g6⟩ := ih fun b hb => h2 b (by simp only [List.mem_append] at hb ⊢; tauto)
    have hb := h2 b (by simp)
    obtain ⟨A, B, A', B', k1, k2, k3, k4⟩ := closer g3 g4 (rate_late _ (by simp; omega)) (rate_late _ (by simp; omega)) b hb
    refine ⟨A, B, A', B', h, h', ?_, ?_, ?_, ?_⟩
    · rw [← List.append_assoc, after_snoc]; exact k1
    · rw [← List.append_assoc, after_snoc]; exact k2
    · rw [k3, List.length_append, List.length_singleton, pow_succ, mul_right_comm]
      linarith
    · rw [List.length_append, List.length_singleton, pow_succ, mul_right_comm]
      linarith

/-- The inputs that the normaliser sees in a batch -/
def inputs (N : Nets d α ο learned Θ Φ) (front : Φ) (batch : List (Transition d α)) : List (Row (ο ⊕ α) ℝ) :=
  batch.map fun t => Sum.elim (N.process front t.obs) t.action

open Classical in
/-- The targets that the normaliser sees in a batch -/
noncomputable def targets (learned : Bool) (noDelta : List Int) (batch : List (Transition d α)) : List (Row (Target d learned) ℝ) :=
  batch.map fun t => Sum.elim (fun i => if Dyn.Spec.listed d noDelta i then t.next i else t.next i - t.obs i) fun _ => t.reward

theorem targets_eq (noDelta : List Int) (hv : Dyn.Spec.valid d noDelta) (batch : List (Transition d α)) :
    ∃ obs, targetObs noDelta batch = .ok obs ∧
      List.zipWith (fun o (t : Transition d α) => (Sum.elim o (fun _ => t.reward) : Row (Target d learned) ℝ)) obs batch =
        targets learned noDelta batch := by
  obtain ⟨rs, h1, h2, h3⟩ := targetObs_ok noDelta batch hv
  refine ⟨rs, h1, ?_⟩
  apply List.ext_getElem?
  intro k
  simp only [targets, List.getElem?_zipWith, List.getElem?_map]
  rcases ht : batch[k]? with _ | t
  · cases rs[k]? <;> simp
  · have hk : k < rs.length := by rw [h2]; exact (List.getElem?_eq_some_iff.1 ht).1
    have hr := List.getElem?_eq_getElem hk
    rw [hr]
    simp only [Option.map_some, Option.some.injEq]
    congr 1
    funext i
    have := h3 k t rs[k] ht hr i
    by_cases hl : Dyn.Spec.listed d noDelta i
    · rw [if_pos hl, this.1 hl]
    · rw [if_neg hl, this.2 hl]

/-- What training makes of the normalisers -/
theorem trainAll_ok (N : Nets d α ο learned Θ Φ) (hp : ∀ f f', N.process f = N.process f') (front : Φ)
    (xs : List (List (Transition d α) × Θ × Φ)) (w : Wrapped d α ο learned Θ Φ) (hv : Dyn.Spec.valid d w.noDelta) :
    ∃ w', w.trainAll N xs = .ok w' ∧ w'.noDelta = w.noDelta ∧ w'.input = (xs.map fun x => inputs N front x.1).foldl Normalizer.update w.input ∧
      w'.target = (xs.map fun x => targets learned w.noDelta x.1).foldl Normalizer.update w.target := by
  induction xs generalizing w with
  | nil => exact ⟨w, rfl, rfl, rfl, rfl⟩
  | cons x xs ih =>
    obtain ⟨obs, h1, h2⟩ := targets_eq (learned := learned) w.noDelta hv x.1
    have hstep : w.train N x = .ok ⟨w.noDelta, x.2.1, x.2.2, w.input.update (inputs N front x.1),
        w.target.update (targets learned w.noDelta x.1)⟩ := by
      simp only [Wrapped.train, Model.processBatch, Wrapped.model, h1, h2, Model.modelInput, inputs, hp w.front front]
    obtain ⟨w', k1, k0, k2, k3⟩ := ih ⟨w.noDelta, x.2.1, x.2.2, w.input.update (inputs N front x.1),
        w.target.update (targets learned w.noDelta x.1)⟩ hv
    exact ⟨w', by simp only [Wrapped.trainAll, hstep, k1], k0, k2, k3⟩

/-- The distance of two models: in every column of inputs and targets, what they subtract and divide by differs by at most `δ`
times as much as it does for two other models. -/
def Spec.Closer (δ : ℝ) (w v w' v' : Wrapped d α ο learned Θ Φ) : Prop :=
  (∀ i, ∃ m s m' s' M S M' S', Spec.At w.input i m s ∧ Spec.At v.input i m' s' ∧ Spec.At w'.input i M S ∧ Spec.At v'.input i M' S' ∧
    |M - M'| ≤ δ * |m - m'| ∧ |S - S'| ≤ δ * |s - s'|) ∧
  ∀ i, ∃ m s m' s' M S M' S', Spec.At w.target i m s ∧ Spec.At v.target i m' s' ∧ Spec.At w'.target i M S ∧
    Spec.At v'.target i M' S' ∧ |M - M'| ≤ δ * |m - m'| ∧ |S - S'| ≤ δ * |s - s'|

/-- C118, another part that holds: a run that is restored from a checkpoint (`v`, with its normalisers empty) catches up with one
that was not interrupted (`w`) if both go on with the same data: after 49 batches, each further batch brings their normalisers
closer by one percent. (Batches of two rows or more; `obs_process_fn` has no parameters.) Missing: that they agree at once. -/
theorem C118_catches_up_partial (N : Nets d α ο learned Θ Φ) (hp : ∀ f f', N.process f = N.process f') (noDelta : List Int)
    (hv : Dyn.Spec.valid d noDelta) (w0 w1 : Θ) (f0 f1 : Φ) (old early later early' later' : List (List (Transition d α) × Θ × Φ))
    (h2 : ∀ x ∈ old ++ early ++ later, 2 ≤ x.1.length) (he : 49 ≤ early.length) (hsame : early.map Prod.fst = early'.map Prod.fst)
    (hsame' : later.map Prod.fst = later'.map Prod.fst) :
    ∃ saved w v w' v', (Wrapped.new noDelta w0 f0).trainAll N old = .ok saved ∧ saved.trainAll N early = .ok w ∧
      ((Wrapped.new noDelta w1 f1).loadStateDict saved.stateDict).trainAll N early' = .ok v ∧ w.trainAll N later = .ok w' ∧
      v.trainAll N later' = .ok v' ∧ Spec.Closer ((99 / 100) ^ later.length) w v w' v' := by
  obtain ⟨saved, a1, a2, a3, a4⟩ := trainAll_ok N hp f0 old (Wrapped.new noDelta w0 f0) hv
  obtain ⟨w, b1, b2, b3, b4⟩ := trainAll_ok N hp f0 early saved (by rw [a2]; exact hv)
  obtain ⟨v, c1, c2, c3, c4⟩ := trainAll_ok N hp f0 early' ((Wrapped.new noDelta w1 f1).loadStateDict saved.stateDict) hv
  obtain ⟨w', d1, -, d3, d4⟩ := trainAll_ok N hp f0 later w (by rw [b2, a2]; exact hv)
  obtain ⟨v', e1, -, e3, e4⟩ := trainAll_ok N hp f0 later' v (by rw [c2]; exact hv)
  have hmap : ∀ {β : Type} (f : List (Transition d α) → β) (l l' : List (List (Transition d α) × Θ × Φ)),
      l.map Prod.fst = l'.map Prod.fst → l.map (fun x => f x.1) = l'.map (fun x => f x.1) := by
    intro β f l l' h
    have := congrArg (List.map f) h
    simpa only [List.map_map, Function.comp_def] using this
  refine ⟨saved, w, v, w', v', a1, b1, c1, d1, e1, ?_, ?_⟩
  · intro i
    have hn : (Wrapped.new noDelta w0 f0 : Wrapped d α ο learned Θ Φ).input = Normalizer.new := rfl
    have hn' : ((Wrapped.new noDelta w1 f1 : Wrapped d α ο learned Θ Φ).loadStateDict saved.stateDict).input = Normalizer.new := rfl
    rw [hn] at a3
    rw [hn'] at c3
    rw [a3, ← List.foldl_append] at b3
    rw [b3, ← List.foldl_append] at d3
    rw [c3, ← List.foldl_append] at e3
    rw [← hmap _ _ _ hsame] at c3 e3
    rw [← hmap _ _ _ hsame'] at e3
    obtain ⟨m, s, m', s', M, S, M', S', g1, g2, g3, g4, g5, g6⟩ := closer_all (old.map fun x => inputs N f0 x.1)
      (early.map fun x => inputs N f0 x.1) (later.map fun x => inputs N f0 x.1)
      (by
        intro b hb
        rw [← List.map_append, ← List.map_append] at hb
        obtain ⟨x, hx, rfl⟩ := List.mem_map.1 hb
        simpa [inputs] using h2 x hx)
      (by simpa using he) i
    rw [List.length_map] at g5 g6
    exact ⟨m, s, m', s', M, S, M', S', by rw [b3]; exact g1.at, by rw [c3]; exact g2.at, by rw [d3]; exact g3.at,
      by rw [e3]; exact g4.at, g5, g6⟩
  · intro i
    have hn : (Wrapped.new noDelta w0 f0 : Wrapped d α ο learned Θ Φ).target = Normalizer.new := rfl
    have hn' : ((Wrapped.new noDelta w1 f1 : Wrapped d α ο learned Θ Φ).loadStateDict saved.stateDict).target = Normalizer.new := rfl
    have hd : ((Wrapped.new noDelta w1 f1 : Wrapped d α ο learned Θ Φ).loadStateDict saved.stateDict).noDelta = noDelta := rfl
    have hd' : (Wrapped.new noDelta w0 f0 : Wrapped d α ο learned Θ Φ).noDelta = noDelta := rfl
    rw [hd'] at a2
    rw [hd] at c2
    rw [hn, hd'] at a4
    rw [hn', hd] at c4
    rw [a4, a2, ← List.foldl_append] at b4
    rw [b4, b2, a2, ← List.foldl_append] at d4
    rw [c4, c2, ← List.foldl_append] at e4
    rw [← hmap _ _ _ hsame] at c4 e4
    rw [← hmap _ _ _ hsame'] at e4
    obtain ⟨m, s, m', s', M, S, M', S', g1, g2, g3, g4, g5, g6⟩ := closer_all (old.map fun x => targets learned noDelta x.1)
      (early.map fun x => targets learned noDelta x.1) (later.map fun x => targets learned noDelta x.1)
      (by
        intro b hb
        rw [← List.map_append, ← List.map_append] at hb
        obtain ⟨x, hx, rfl⟩ := List.mem_map.1 hb
        simpa [targets] using h2 x hx)
      (by simpa using he) i
    rw [List.length_map] at g5 g6
    exact ⟨m, s, m', s', M, S, M', S', by rw [b4]; exact g1.at, by rw [c4]; exact g2.at, by rw [d4]; exact g3.at,
      by rw [e4]; exact g4.at, g5, g6⟩

/-- A case: after 49 + 500 batches the distance is less than a hundredth of what it was after 49. -/
example : ∃ saved w v w' v', (Wrapped.new [] () ()).trainAll zero [(up, (), ())] = .ok saved ∧
    saved.trainAll zero (List.replicate 49 (up, (), ())) = .ok w ∧
    ((Wrapped.new [] () ()).loadStateDict saved.stateDict).trainAll zero (List.replicate 49 (up, (), ())) = .ok v ∧
    w.trainAll zero (List.replicate 500 (up, (), ())) = .ok w' ∧ v.trainAll zero (List.replicate 500 (up, (), ())) = .ok v' ∧
    Spec.Closer ((99 / 100) ^ 500) w v w' v' := by
  have := C118_catches_up_partial zero (fun _ _ => rfl) [] (by intro e he; cases he) () () () () [(up, (), ())]
    (List.replicate 49 (up, (), ())) (List.replicate 500 (up, (), ())) _ _
    (by
      intro x hx
      have : x = (up, (), ()) := by
        simp only [List.mem_append, List.mem_singleton, List.mem_replicate] at hx
        tauto
      subst this
      simp [up])
    (by simp) rfl rfl
  simpa only [List.length_replicate] using this

example : ((99 : ℝ) / 100) ^ 500 < 1 / 100 := by
  rw [show 500 = 100 * 5 from rfl, pow_mul]
  norm_num

end DynSave

end Verif
