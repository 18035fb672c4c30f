import Verif.Model.Ensemble
import Verif.Props.LossStep
import Verif.Props.Ensemble
import Mathlib.Analysis.Calculus.Deriv.Add
import Mathlib.Analysis.Calculus.Deriv.Pow
import Mathlib.Analysis.Calculus.Deriv.Mul

/-!
# The members of the ensemble (C119, C120)
-/

namespace Verif

namespace Ens

variable {k nIn h n m b : Nat}

noncomputable section

/-! ## C119 -/

/-- One network on its own. -/
structure Spec.Mlp (nIn h n m : Nat) where
  w0 : Fin nIn → Fin h → ℝ
  b0 : Fin h → ℝ
  w : Fin m → Fin h → Fin h → ℝ
  b : Fin m → Fin h → ℝ
  w' : Fin h → Fin n ⊕ Fin n → ℝ
  b' : Fin n ⊕ Fin n → ℝ

/-- The numbers after layer `l`, for one input. -/
def Spec.Mlp.layer (s : Spec.Mlp nIn h n m) (x : Fin nIn → ℝ) : Nat → Fin h → ℝ
  | 0 => fun o => max 0 ((∑ j, x j * s.w0 j o) + s.b0 o)
  | l + 1 => if hl : l < m then fun o => max 0 ((∑ j, s.layer x l j * s.w ⟨l, hl⟩ j o) + s.b ⟨l, hl⟩ o) else s.layer x l

/-- What the network gives for one input. -/
def Spec.Mlp.out (s : Spec.Mlp nIn h n m) (x : Fin nIn → ℝ) (o : Fin n ⊕ Fin n) : ℝ := (∑ j, s.layer x m j * s.w' j o) + s.b' o

/-- Its mean for output `j`. -/
def Spec.Mlp.mean (s : Spec.Mlp nIn h n m) (x : Fin nIn → ℝ) (j : Fin n) : ℝ := s.out x (.inl j)

/-- Its log variance, with bounds. -/
def Spec.Mlp.logvar (s : Spec.Mlp nIn h n m) (lo hi : Fin n → ℝ) (x : Fin nIn → ℝ) (j : Fin n) : ℝ :=
  Policy.boundLogvar (lo j) (hi j) (s.out x (.inr j))

/-- Its loss on a batch. -/
def Spec.Mlp.loss (s : Spec.Mlp nIn h n m) (lo hi : Fin n → ℝ) (x : Fin b → Fin nIn → ℝ) (target : Fin b → Fin n → ℝ) : ℝ :=
  (∑ r, ∑ j, Policy.gaussianNLL (s.mean (x r) j) (target r j) (Real.exp (s.logvar lo hi (x r) j))) / (b * n)

/-- The parameters of one member. -/
def Net.member (net : Net k nIn h n m) (i : Fin k) : Spec.Mlp nIn h n m :=
  ⟨net.first.weight i, net.first.bias i, fun l => (net.rest l).weight i, fun l => (net.rest l).bias i, net.last.weight i, net.last.bias i⟩

theorem foldl_member (ls : List (Layer k (Fin h) (Fin h))) (x : Fin k → Fin b → Fin h → ℝ) (i : Fin k) (r : Fin b) :
    (ls.foldl (fun x l => relu (l.forward x)) x) i r =
      ls.foldl (fun y l => fun o => max 0 ((∑ j, y j * l.weight i j o) + l.bias i o)) (x i r) := by
  induction ls generalizing x with
  | nil => rfl
  | cons l ls ih => rw [List.foldl_cons, List.foldl_cons, ih]; rfl

theorem layer_eq (net : Net k nIn h n m) (i : Fin k) (x : Fin nIn → ℝ) (l : Nat) (hl : l ≤ m) :
    (net.member i).layer x l = ((List.ofFn net.rest).take l).foldl
      (fun y l => fun o => max 0 ((∑ j, y j * l.weight i j o) + l.bias i o))
      (fun o => max 0 ((∑ j, x j * net.first.weight i j o) + net.first.bias i o)) := by
  induction l with
  | zero => rfl
  | succ l ih =>
    have hl' : l < (List.ofFn net.rest).length := by rw [List.length_ofFn]; omega
    rw [List.take_succ_eq_append_getElem hl', List.foldl_append, ← ih (by omega)]
    simp only [List.foldl_cons, List.foldl_nil, List.getElem_ofFn, Spec.Mlp.layer, dif_pos (show l < m by omega)]
    rfl

theorem raw_eq (net : Net k nIn h n m) (x : Fin k → Fin b → Fin nIn → ℝ) (i : Fin k) (r : Fin b) (o : Fin n ⊕ Fin n) :
    net.raw x i r o = (net.member i).out (x i r) o := by
  simp only [Net.raw, Layer.forward, Spec.Mlp.out]
  have h1 := layer_eq net i (x i r) m le_rfl
  rw [List.take_of_length_le (by simp)] at h1
  rw [h1, foldl_member]
  rfl

/-- C119: what the ensemble predicts for a row is the average of what its members, each with its own parameters, predict for that
row. The other rows of the batch do not matter. -/
theorem C119_forward (net : Net k nIn h n m) (x : Fin b → Fin nIn → ℝ) (r : Fin b) (j : Fin n) :
    (net.forward x).1 r j = (∑ i, (net.member i).mean (x r) j) / k ∧
      (net.forward x).2 r j = (∑ i, (net.member i).logvar net.lo net.hi (x r) j) / k := by
  simp only [Net.forward, Net.defaultForward, raw_eq, Spec.Mlp.mean, Spec.Mlp.logvar, and_self]

/-- C119: so the prediction for a row is the same in every batch that has it, given the same random numbers. -/
theorem C119_rows {b' : Nat} (net : Net k nIn h n m) (det : Bool) (ε : Fin b → Fin n → ℝ) (ε' : Fin b' → Fin n → ℝ)
    (x : Fin b → Fin nIn → ℝ) (x' : Fin b' → Fin nIn → ℝ) (r : Fin b) (r' : Fin b') (hx : x r = x' r') (hε : ε r = ε' r') :
    net.sample det ε x r = net.sample det ε' x' r' := by
  funext j
  unfold Net.sample
  cases det
  · simp only [Bool.false_eq_true, if_false, (C119_forward net x r j).1, (C119_forward net x r j).2, (C119_forward net x' r' j).1,
      (C119_forward net x' r' j).2, hx, hε]
  · simp only [if_true, (C119_forward net x r j).1, (C119_forward net x' r' j).1, hx]

/-- C119: a sample is the average of the means, plus a standard normal number times the standard deviation (half the logarithm of the
variance is that of the standard deviation), where the average is taken of the logarithms; a deterministic one is the average of the
means. -/
theorem C119_sample (net : Net k nIn h n m) (ε : Fin b → Fin n → ℝ) (x : Fin b → Fin nIn → ℝ) (r : Fin b) (j : Fin n) :
    net.sample true ε x r j = (∑ i, (net.member i).mean (x r) j) / k ∧
      net.sample false ε x r j = (∑ i, (net.member i).mean (x r) j) / k +
        Real.exp ((∑ i, (net.member i).logvar net.lo net.hi (x r) j) / k / 2) * ε r j := by
  unfold Net.sample
  simp only [Bool.false_eq_true, if_false, if_true, (C119_forward net x r j).1, (C119_forward net x r j).2, Real.exp_half, true_and]

/-- C119: the loss of the ensemble is the sum of the losses of its members on their own, and the penalty for the bounds. -/
theorem C119_loss (net : Net k nIn h n m) (x : Fin b → Fin nIn → ℝ) (target : Fin b → Fin n → ℝ) :
    net.loss x target = (∑ i, (net.member i).loss net.lo net.hi x target) + 1 / 100 * ∑ j, (net.hi j - net.lo j) := by
  simp only [Net.loss, Net.loss3, Net.defaultForward, raw_eq, Spec.Mlp.loss, Spec.Mlp.mean, Spec.Mlp.logvar, Finset.sum_sub_distrib]
  norm_num

/-- C119: the same when each member has its own data. -/
theorem C119_loss_own_data (net : Net k nIn h n m) (x : Fin k → Fin b → Fin nIn → ℝ) (target : Fin k → Fin b → Fin n → ℝ) :
    net.loss3 x target = (∑ i, (net.member i).loss net.lo net.hi (x i) (target i)) + 1 / 100 * ∑ j, (net.hi j - net.lo j) := by
  simp only [Net.loss3, Net.defaultForward, raw_eq, Spec.Mlp.loss, Spec.Mlp.mean, Spec.Mlp.logvar, Finset.sum_sub_distrib]
  norm_num

/-- C119: when only member `i` changes, the loss changes as the loss of that member on its own does; in particular it has the same
derivatives. -/
theorem C119_gradient (net : ℝ → Net k nIn h n m) (i : Fin k) (t₀ : ℝ) (hothers : ∀ t i', i' ≠ i → (net t).member i' = (net t₀).member i')
    (hlo : ∀ t, (net t).lo = (net t₀).lo) (hhi : ∀ t, (net t).hi = (net t₀).hi) (x : Fin b → Fin nIn → ℝ)
    (target : Fin b → Fin n → ℝ) (g t : ℝ) :
    HasDerivAt (fun t => (net t).loss x target) g t ↔
      HasDerivAt (fun t => ((net t).member i).loss (net t₀).lo (net t₀).hi x target) g t := by
  have : (fun t => (net t).loss x target) = fun t => ((net t).member i).loss (net t₀).lo (net t₀).hi x target +
      ((∑ i' ∈ Finset.univ.erase i, ((net t₀).member i').loss (net t₀).lo (net t₀).hi x target) +
        1 / 100 * ∑ j, ((net t₀).hi j - (net t₀).lo j)) := by
    funext t
    rw [C119_loss, hlo, hhi, ← Finset.add_sum_erase _ _ (Finset.mem_univ i), add_assoc]
    congr 2
    exact Finset.sum_congr rfl fun i' hi' => by rw [hothers t i' (Finset.ne_of_mem_erase hi')]
  rw [this]
  exact ⟨fun h => by simpa using h.sub_const ((∑ i' ∈ Finset.univ.erase i, ((net t₀).member i').loss (net t₀).lo (net t₀).hi x target) +
        1 / 100 * ∑ j, ((net t₀).hi j - (net t₀).lo j)), fun h => h.add_const _⟩

/-- An ensemble with three members, inputs 2 and 5, hidden numbers `i * x` and `-x` (which `relu` removes), means `i * x + 1`. -/
def Ex.net : Net 3 1 2 1 0 where
  first := ⟨fun i _ o => if o = 0 then i else -1, fun _ _ => 0⟩
  rest := fun l => l.elim0
  last := ⟨fun _ _ o => if o = .inl 0 then 1 else 0, fun _ o => if o = .inl 0 then 1 else 0⟩
  lo := fun _ => -10
  hi := fun _ => 1

example : (Ex.net.forward (b := 2) fun r _ => if r = 0 then 2 else 5).1 0 0 = 3 ∧
    (Ex.net.forward (b := 2) fun r _ => if r = 0 then 2 else 5).1 1 0 = 6 := by
  constructor <;>
  · rw [(C119_forward _ _ _ _).1]
    simp [Fin.sum_univ_succ, Spec.Mlp.mean, Spec.Mlp.out, Spec.Mlp.layer, Net.member, Ex.net]
    norm_num

/-! ## C120 -/

/-- Members side by side. -/
def assemble (ms : Fin k → Spec.Mlp nIn h n m) (lo hi : Fin n → ℝ) : Net k nIn h n m where
  first := ⟨fun i => (ms i).w0, fun i => (ms i).b0⟩
  rest := fun l => ⟨fun i => (ms i).w l, fun i => (ms i).b l⟩
  last := ⟨fun i => (ms i).w', fun i => (ms i).b'⟩
  lo := lo
  hi := hi

/-- Training on the batches `ds`, one after the other, from the values `v`. The result are the values. -/
def train {Q : Type} [DecidableEq Q] (qs : List Q) (build : (Fin k → Q → ℝ) → Net k nIn h n m) (maxNorm : ℝ) (rate : Nat → ℝ)
    (ds : List ((Fin b → Fin nIn → ℝ) × (Fin b → Fin n → ℝ))) (v : Fin k × Q → ℝ) : Fin k × Q → ℝ :=
  (ds.foldl (fun (y : LossStep.State Unit × LossStep.World (Fin k × Q)) d =>
    LossStep.backward (trainer qs build maxNorm rate) d y.1 y.2) (⟨(), 0, []⟩, ⟨v, fun _ => none⟩)).2.value

/-- The claim: a member of an ensemble is trained as if it were alone. -/
def C120_claim : Prop := ∀ (k nIn h n m b : Nat) (Q : Type) (_ : DecidableEq Q) (qs : List Q) (one : (Q → ℝ) → Spec.Mlp nIn h n m)
  (lo hi : Fin n → ℝ) (maxNorm : ℝ) (rate : Nat → ℝ) (ds : List ((Fin b → Fin nIn → ℝ) × (Fin b → Fin n → ℝ)))
  (v : Fin k × Q → ℝ) (i : Fin k), 0 < maxNorm → qs.Nodup → ∀ q ∈ qs,
    train qs (fun w => assemble (fun i => one (w i)) lo hi) maxNorm rate ds v (i, q) =
      train (k := 1) qs (fun w => assemble (fun i => one (w i)) lo hi) maxNorm rate ds (fun x => v (i, x.2)) (0, q)

theorem own_nodup {Q : Type} (qs : List Q) (hq : qs.Nodup) (k : Nat) :
    ((List.finRange k).flatMap fun i => qs.map fun q => (i, q)).Nodup := by
  rw [List.nodup_flatMap]
  refine ⟨fun i _ => hq.map fun a b h => (Prod.mk.inj h).2, (List.nodup_finRange k).imp fun hne => ?_⟩
  intro x h1 h2
  obtain ⟨_, _, rfl⟩ := List.mem_map.1 h1
  obtain ⟨_, _, h3⟩ := List.mem_map.1 h2
  exact hne (Prod.mk.inj h3).1.symm

theorem mem_own {Q : Type} {qs : List Q} {q : Q} (hq : q ∈ qs) (i : Fin k) :
    (i, q) ∈ (List.finRange k).flatMap fun i => qs.map fun q => (i, q) :=
  List.mem_flatMap.2 ⟨i, List.mem_finRange i, List.mem_map.2 ⟨q, hq, rfl⟩⟩

/-- One step of gradient descent. -/
theorem sgd_value {P B : Type} [DecidableEq P] (c : LossStep.Cfg P Unit B) (hs : c.step = Temp.sgd) (hn : c.own.Nodup) (d : B)
    (s : LossStep.State Unit) (w : LossStep.World P) (g : P → ℝ) (hg : ∀ p, c.deriv d w.value p = some (g p)) (p : P) (hp : p ∈ c.own) :
    (LossStep.backward c d s w).2.value p =
      w.value p - c.rate s.steps * (g p * LossStep.factor c.maxNorm √((c.own.map fun p => g p ^ 2).sum)) := by
  have hsq : LossStep.Spec.sq c.own (c.deriv d w.value) = (c.own.map fun p => g p ^ 2).sum := by
    unfold LossStep.Spec.sq
    simp only [hg]
  have h1 : c.own.map (LossStep.backward c d s w).2.value = c.own.map fun p =>
      w.value p - c.rate s.steps * (g p * LossStep.factor c.maxNorm √((c.own.map fun p => g p ^ 2).sum)) := by
    simp only [LossStep.backward]
    rw [LossStep.assign_own _ hn]
    · change (c.step _ _ _).2 = _
      rw [hs]
      simp only [Temp.sgd, List.map_map]
      refine List.map_congr_left fun q hq => ?_
      simp only [Function.comp, LossStep.clip, hq, if_true, LossStep.accumulate_zero hq, LossStep.norm_present,
        LossStep.sq_congr (fun p hp => LossStep.accumulate_zero hp), hsq]
      rw [hg]
      rfl
    · change (c.step _ _ _).2.length = _
      rw [hs]; simp [Temp.sgd]
  exact List.map_inj_left.1 h1 p hp

/-- The derivative of the loss of one member on its own. -/
def Spec.grad {Q : Type} [DecidableEq Q] (one : (Q → ℝ) → Spec.Mlp nIn h n m) (lo hi : Fin n → ℝ)
    (d : (Fin b → Fin nIn → ℝ) × (Fin b → Fin n → ℝ)) (u : Q → ℝ) (q : Q) : ℝ :=
  deriv (fun t => (one (Function.update u q t)).loss lo hi d.1 d.2) (u q)

theorem trainer_deriv {Q : Type} [DecidableEq Q] (qs : List Q) (one : (Q → ℝ) → Spec.Mlp nIn h n m) (lo hi : Fin n → ℝ) (maxNorm : ℝ)
    (rate : Nat → ℝ) (d : (Fin b → Fin nIn → ℝ) × (Fin b → Fin n → ℝ)) (v : Fin k × Q → ℝ) (p : Fin k × Q) :
    (trainer qs (fun w => assemble (fun i => one (w i)) lo hi) maxNorm rate).deriv d v p =
      some (Spec.grad one lo hi d (fun q => v (p.1, q)) p.2) := by
  simp only [trainer, Spec.grad, Option.some.injEq]
  have : (fun t => (assemble (fun i => one fun q => (Function.update v p t) (i, q)) lo hi).loss d.1 d.2) = fun t =>
      (one (Function.update (fun q => v (p.1, q)) p.2 t)).loss lo hi d.1 d.2 +
      ((∑ i' ∈ Finset.univ.erase p.1, (one fun q => v (i', q)).loss lo hi d.1 d.2) + 1 / 100 * ∑ j, (hi j - lo j)) := by
    funext t
    rw [C119_loss, ← Finset.add_sum_erase _ _ (Finset.mem_univ p.1), add_assoc]
    congr 1
    · have : (fun q => (Function.update v p t) (p.1, q)) = Function.update (fun q => v (p.1, q)) p.2 t := by
        funext q
        by_cases hq : q = p.2
        · subst hq; simp
        · rw [Function.update_of_ne hq, Function.update_of_ne]
          exact fun h => hq (congrArg Prod.snd h)
      rw [← this]; rfl
    · congr 1
      refine Finset.sum_congr rfl fun i' hi' => ?_
      have : (fun q => (Function.update v p t) (i', q)) = fun q => v (i', q) := by
        funext q
        rw [Function.update_of_ne]
        exact fun h => Finset.ne_of_mem_erase hi' (congrArg Prod.fst h)
      rw [← this]; rfl
  rw [this, deriv_add_const]

/-- One step of training for one member. -/
theorem trainer_value {Q : Type} [DecidableEq Q] (qs : List Q) (hqs : qs.Nodup) (one : (Q → ℝ) → Spec.Mlp nIn h n m) (lo hi : Fin n → ℝ)
    (maxNorm : ℝ) (rate : Nat → ℝ) (d : (Fin b → Fin nIn → ℝ) × (Fin b → Fin n → ℝ)) (s : LossStep.State Unit)
    (w : LossStep.World (Fin k × Q)) (i : Fin k) (q : Q) (hq : q ∈ qs) :
    (LossStep.backward (trainer qs (fun w => assemble (fun i => one (w i)) lo hi) maxNorm rate) d s w).2.value (i, q) =
      w.value (i, q) - rate s.steps * (Spec.grad one lo hi d (fun q => w.value (i, q)) q * LossStep.factor maxNorm
        √(∑ i, (qs.map fun q => Spec.grad one lo hi d (fun q => w.value (i, q)) q ^ 2).sum)) := by
  rw [sgd_value (trainer qs (fun w => assemble (fun i => one (w i)) lo hi) maxNorm rate) rfl (own_nodup qs hqs k) d s w
    (fun p => Spec.grad one lo hi d (fun q => w.value (p.1, q)) p.2) (trainer_deriv qs one lo hi maxNorm rate d w.value) (i, q)
    (mem_own hq i)]
  have : ((trainer (b := b) qs (fun w : Fin k → Q → ℝ => assemble (fun i => one (w i)) lo hi) maxNorm rate).own.map fun p =>
      Spec.grad one lo hi d (fun q => w.value (p.1, q)) p.2 ^ 2).sum =
      ∑ i, (qs.map fun q => Spec.grad one lo hi d (fun q => w.value (i, q)) q ^ 2).sum := by
    simp only [trainer]
    rw [Fin.sum_univ_def, List.map_flatMap, List.flatMap, List.sum_flatten, List.map_map]
    simp only [Function.comp_def, List.map_map]
  rw [this]
  rfl

/-- Parameters that the optimizer does not have stay. -/
theorem trainer_other {Q : Type} [DecidableEq Q] (qs : List Q) (one : (Q → ℝ) → Spec.Mlp nIn h n m) (lo hi : Fin n → ℝ)
    (maxNorm : ℝ) (rate : Nat → ℝ) (d : (Fin b → Fin nIn → ℝ) × (Fin b → Fin n → ℝ)) (s : LossStep.State Unit)
    (w : LossStep.World (Fin k × Q)) (i : Fin k) (q : Q) (hq : q ∉ qs) :
    (LossStep.backward (trainer qs (fun w => assemble (fun i => one (w i)) lo hi) maxNorm rate) d s w).2.value (i, q) =
      w.value (i, q) := by
  refine LossStep.assign_other _ _ _ _ fun h => ?_
  obtain ⟨_, _, h2⟩ := List.mem_flatMap.1 h
  obtain ⟨_, h3, h4⟩ := List.mem_map.1 h2
  exact hq ((Prod.mk.inj h4).2 ▸ h3)

/-- C120, partial: a member of an ensemble is trained as if it were alone, if in all steps the gradients of all members together are
shorter than the limit. Missing: it is false otherwise, see `C120_false`; other optimizers than plain gradient descent. -/
theorem C120_partial {Q : Type} [DecidableEq Q] (qs : List Q) (hqs : qs.Nodup) (one : (Q → ℝ) → Spec.Mlp nIn h n m) (lo hi : Fin n → ℝ)
    (maxNorm : ℝ) (hmax : 0 < maxNorm) (rate : Nat → ℝ) (ds : List ((Fin b → Fin nIn → ℝ) × (Fin b → Fin n → ℝ))) (v : Fin k × Q → ℝ)
    (hshort : ∀ pre d post, ds = pre ++ d :: post →
      √(∑ i, (qs.map fun q => Spec.grad one lo hi d
        (fun q => train qs (fun w => assemble (fun i => one (w i)) lo hi) maxNorm rate pre v (i, q)) q ^ 2).sum) + 1 / 10 ^ 6 ≤ maxNorm)
    (i : Fin k) (q : Q) :
    train qs (fun w => assemble (fun i => one (w i)) lo hi) maxNorm rate ds v (i, q) =
      train (k := 1) qs (fun w => assemble (fun i => one (w i)) lo hi) maxNorm rate ds (fun x => v (i, x.2)) (0, q) := by
  have hsteps : ∀ {k : Nat} (ds : List ((Fin b → Fin nIn → ℝ) × (Fin b → Fin n → ℝ))) (v : Fin k × Q → ℝ),
      (ds.foldl (fun (y : LossStep.State Unit × LossStep.World (Fin k × Q)) d =>
        LossStep.backward (trainer qs (fun w => assemble (fun i => one (w i)) lo hi) maxNorm rate) d y.1 y.2)
          (⟨(), 0, []⟩, ⟨v, fun _ => none⟩)).1.steps = ds.length := by
    intro k ds v
    induction ds using List.reverseRecOn with
    | nil => rfl
    | append_singleton ds d ih =>
      rw [List.foldl_append, List.foldl_cons, List.foldl_nil, List.length_append, List.length_singleton, ← ih]
      rfl
  induction ds using List.reverseRecOn generalizing q with
  | nil => rfl
  | append_singleton ds d ih =>
    have ih' := ih fun pre d' post he => hshort pre d' (post ++ [d]) (by rw [he]; simp)
    have hfun := funext ih'
    have hs := hshort ds d [] (by simp)
    have e1 := hsteps ds v
    have e2 := hsteps (k := 1) ds (fun x => v (i, x.2))
    by_cases hq : q ∈ qs
    · set own := fun i : Fin k => (qs.map fun q => Spec.grad one lo hi d (fun q => train qs
        (fun w => assemble (fun i => one (w i)) lo hi) maxNorm rate ds v (i, q)) q ^ 2).sum with hown
      have hnn : ∀ i, 0 ≤ own i := fun i => List.sum_nonneg fun x hx => by
        obtain ⟨_, _, rfl⟩ := List.mem_map.1 hx
        exact sq_nonneg _
      have hs1 : √(own i) + 1 / 10 ^ 6 ≤ maxNorm :=
        le_trans (add_le_add_left (Real.sqrt_le_sqrt (Finset.single_le_sum (fun i _ => hnn i) (Finset.mem_univ i))) _) hs
      have f1 := (LossStep.factor_spec hmax (Real.sqrt_nonneg (∑ i, own i))).2.2.2 hs
      have f2 := (LossStep.factor_spec hmax (Real.sqrt_nonneg (own i))).2.2.2 hs1
      have t1 := trainer_value qs hqs one lo hi maxNorm rate d
        (ds.foldl (fun (y : LossStep.State Unit × LossStep.World (Fin k × Q)) d =>
          LossStep.backward (trainer qs (fun w => assemble (fun i => one (w i)) lo hi) maxNorm rate) d y.1 y.2)
            (⟨(), 0, []⟩, ⟨v, fun _ => none⟩)).1
        (ds.foldl (fun (y : LossStep.State Unit × LossStep.World (Fin k × Q)) d =>
          LossStep.backward (trainer qs (fun w => assemble (fun i => one (w i)) lo hi) maxNorm rate) d y.1 y.2)
            (⟨(), 0, []⟩, ⟨v, fun _ => none⟩)).2 i q hq
      have t2 := trainer_value (k := 1) qs hqs one lo hi maxNorm rate d
        (ds.foldl (fun (y : LossStep.State Unit × LossStep.World (Fin 1 × Q)) d =>
          LossStep.backward (trainer qs (fun w => assemble (fun i => one (w i)) lo hi) maxNorm rate) d y.1 y.2)
            (⟨(), 0, []⟩, ⟨fun x => v (i, x.2), fun _ => none⟩)).1
        (ds.foldl (fun (y : LossStep.State Unit × LossStep.World (Fin 1 × Q)) d =>
          LossStep.backward (trainer qs (fun w => assemble (fun i => one (w i)) lo hi) maxNorm rate) d y.1 y.2)
            (⟨(), 0, []⟩, ⟨fun x => v (i, x.2), fun _ => none⟩)).2 0 q hq
      rw [e1] at t1
      rw [e2, Finset.univ_unique, Finset.sum_singleton] at t2
      simp only [train, List.foldl_append, List.foldl_cons, List.foldl_nil]
      refine t1.trans (Eq.trans ?_ t2.symm)
      have hfun' : (fun q => (ds.foldl (fun (y : LossStep.State Unit × LossStep.World (Fin 1 × Q)) d =>
          LossStep.backward (trainer qs (fun w => assemble (fun i => one (w i)) lo hi) maxNorm rate) d y.1 y.2)
            (⟨(), 0, []⟩, ⟨fun x => v (i, x.2), fun _ => none⟩)).2.value (0, q)) = fun q => train qs
        (fun w => assemble (fun i => one (w i)) lo hi) maxNorm rate ds v (i, q) := hfun.symm
      have hq' := congrFun hfun' q
      have hd : (default : Fin 1) = 0 := rfl
      rw [hd, hfun', hq']
      change _ - _ * (_ * LossStep.factor maxNorm √(∑ i, own i)) = _ - _ * (_ * LossStep.factor maxNorm √(own i))
      rw [f1, f2]
      rfl
    · have t1 := trainer_other qs one lo hi maxNorm rate d
        (ds.foldl (fun (y : LossStep.State Unit × LossStep.World (Fin k × Q)) d =>
          LossStep.backward (trainer qs (fun w => assemble (fun i => one (w i)) lo hi) maxNorm rate) d y.1 y.2)
            (⟨(), 0, []⟩, ⟨v, fun _ => none⟩)).1
        (ds.foldl (fun (y : LossStep.State Unit × LossStep.World (Fin k × Q)) d =>
          LossStep.backward (trainer qs (fun w => assemble (fun i => one (w i)) lo hi) maxNorm rate) d y.1 y.2)
            (⟨(), 0, []⟩, ⟨v, fun _ => none⟩)).2 i q hq
      have t2 := trainer_other (k := 1) qs one lo hi maxNorm rate d
        (ds.foldl (fun (y : LossStep.State Unit × LossStep.World (Fin 1 × Q)) d =>
          LossStep.backward (trainer qs (fun w => assemble (fun i => one (w i)) lo hi) maxNorm rate) d y.1 y.2)
            (⟨(), 0, []⟩, ⟨fun x => v (i, x.2), fun _ => none⟩)).1
        (ds.foldl (fun (y : LossStep.State Unit × LossStep.World (Fin 1 × Q)) d =>
          LossStep.backward (trainer qs (fun w => assemble (fun i => one (w i)) lo hi) maxNorm rate) d y.1 y.2)
            (⟨(), 0, []⟩, ⟨fun x => v (i, x.2), fun _ => none⟩)).2 0 q hq
      simp only [train, List.foldl_append, List.foldl_cons, List.foldl_nil]
      exact t1.trans ((ih' q).trans t2.symm)

/-! A counterexample: two equal members with one parameter, the mean. -/

/-- A network whose mean is its parameter, with log variance 0 before the bounds. -/
def Ex.const (u : Unit → ℝ) : Spec.Mlp 1 1 1 0 where
  w0 := fun _ _ => 0
  b0 := fun _ => 0
  w := fun l => l.elim0
  b := fun l => l.elim0
  w' := fun _ _ => 0
  b' := fun o => if o = .inl 0 then u () else 0

/-- The variance of the example. -/
def Ex.var : ℝ := max (Real.exp (Policy.boundLogvar (-10) 1 0)) (1 / 10 ^ 6)

theorem Ex.var_pos : 0 < Ex.var := lt_max_of_lt_left (Real.exp_pos _)

/-- Input 0, target so far away that the derivative is 20. -/
def Ex.far : (Fin 1 → Fin 1 → ℝ) × (Fin 1 → Fin 1 → ℝ) := (fun _ _ => 0, fun _ _ => -20 * Ex.var)

theorem Ex.grad_eq (u : Unit → ℝ) (hu : u () = 0) :
    Spec.grad Ex.const (fun _ => -10) (fun _ => 1) Ex.far u () = 20 := by
  have h : (fun t => (Ex.const (Function.update u () t)).loss (fun _ => -10) (fun _ => 1) Ex.far.1 Ex.far.2) =
      fun t => 0.5 * (Real.log Ex.var + (t - -20 * Ex.var) ^ 2 / Ex.var) := by
    funext t
    simp [Spec.Mlp.loss, Spec.Mlp.mean, Spec.Mlp.logvar, Spec.Mlp.out, Ex.const, Policy.gaussianNLL, Ex.far, Ex.var]
  have hv := Ex.var_pos.ne'
  have hd : HasDerivAt (fun t : ℝ => 0.5 * (Real.log Ex.var + (t - -20 * Ex.var) ^ 2 / Ex.var)) 20 0 := by
    have h1 := (((((hasDerivAt_id (0 : ℝ)).sub_const (-20 * Ex.var)).pow 2).div_const Ex.var).const_add (Real.log Ex.var)).const_mul 0.5
    refine h1.congr_deriv ?_
    simp only [id]
    field_simp
    norm_num
  rw [Spec.grad, h, hu]
  exact hd.deriv

/-- C120 is false: two equal members, with a derivative of 20 each; together the gradient is longer than that of one of them, and is
shortened more. -/
theorem C120_false : ¬ C120_claim := by
  intro h
  have h1 := h 2 1 1 1 0 1 Unit inferInstance [()] Ex.const (fun _ => -10) (fun _ => 1) 10 (fun _ => 1) [Ex.far] (fun _ => 0) 0
    (by norm_num) (by simp) () (by simp)
  simp only [train, List.foldl_cons, List.foldl_nil] at h1
  rw [trainer_value _ (by simp) _ _ _ _ _ _ _ _ _ _ (by simp), trainer_value _ (by simp) _ _ _ _ _ _ _ _ _ _ (by simp)] at h1
  simp only [Ex.grad_eq, List.map_cons, List.map_nil, List.sum_cons, List.sum_nil, Fin.sum_univ_two, Fin.sum_univ_one] at h1
  have s1 : √((20 : ℝ) ^ 2 + 0) = 20 := by rw [add_zero]; exact Real.sqrt_sq (by norm_num)
  have s2 : (28 : ℝ) ≤ √((20 : ℝ) ^ 2 + 0 + (20 ^ 2 + 0)) := Real.le_sqrt_of_sq_le (by norm_num)
  rw [s1] at h1
  have f1 : LossStep.factor 10 20 = 10 / (20 + 1 / 10 ^ 6) := min_eq_right (by norm_num)
  have f2 : LossStep.factor 10 √((20 : ℝ) ^ 2 + 0 + (20 ^ 2 + 0)) ≤ 10 / 28 := by
    refine (min_le_right _ _).trans ?_
    apply div_le_div_of_nonneg_left <;> [norm_num; norm_num; skip]
    exact s2.trans (le_add_of_nonneg_right (by norm_num))
  rw [f1] at h1
  have : LossStep.factor 10 √((20 : ℝ) ^ 2 + 0 + (20 ^ 2 + 0)) = 10 / (20 + 1 / 10 ^ 6) := by linarith
  rw [this] at f2
  norm_num at f2

/-- With a limit of 100 the two members of the example are trained as if alone: both go from 0 to -20. -/
example : train (k := 2) [()] (fun w => assemble (fun i => Ex.const (w i)) (fun _ => -10) fun _ => 1) 100 (fun _ => 1) [Ex.far]
    (fun _ => 0) (1, ()) = -20 := by
  simp only [train, List.foldl_cons, List.foldl_nil]
  rw [trainer_value _ (by simp) _ _ _ _ _ _ _ _ _ _ (by simp)]
  simp only [Ex.grad_eq, List.map_cons, List.map_nil, List.sum_cons, List.sum_nil, Fin.sum_univ_two]
  have s2 : √((20 : ℝ) ^ 2 + 0 + (20 ^ 2 + 0)) ≤ 30 := Real.sqrt_le_iff.2 (by norm_num)
  have f : LossStep.factor 100 √((20 : ℝ) ^ 2 + 0 + (20 ^ 2 + 0)) = 1 :=
    (LossStep.factor_spec (by norm_num) (Real.sqrt_nonneg _)).2.2.2 (by norm_num at s2 ⊢; linarith)
  rw [f]
  norm_num

end

end Ens

end Verif
