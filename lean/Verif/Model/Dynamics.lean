import Mathlib.Analysis.SpecialFunctions.Pow.Real
import Verif.Base.Res

/-!
# Dynamics model

`Normalizer` and `DynamicModel` of `emote/models/model.py`. Numbers are real numbers or "not a finite number" (`none`),
which every operation passes on and for which every comparison is false. A tensor of shape (N, d) is the list of its N
rows, a row is a function of the column.
-/

namespace Verif

namespace Dyn

/-- A float: `none` is nan (or an infinity). -/
abbrev Num := Option ℝ

def Num.map₂ (f : ℝ → ℝ → ℝ) : Num → Num → Num
  | some a, some b => some (f a b)
  | _, _ => none

noncomputable def Num.add : Num → Num → Num := Num.map₂ (· + ·)
noncomputable def Num.sub : Num → Num → Num := Num.map₂ (· - ·)
noncomputable def Num.mul : Num → Num → Num := Num.map₂ (· * ·)

/-- a quotient by 0 is an infinity or nan -/
noncomputable def Num.div : Num → Num → Num
  | some a, some b => if b = 0 then none else some (a / b)
  | _, _ => none

/-- `data.mean(0)` of a column: nan for no rows -/
noncomputable def mean (xs : List ℝ) : Num := if xs.length = 0 then none else some (xs.sum / xs.length)

/-- `data.std(0)` of a column: divides by the number of rows less one, so that it is nan for fewer than two rows -/
noncomputable def std (xs : List ℝ) : Num :=
  if xs.length ≤ 1 then none
  else
    let m := xs.sum / xs.length
    some (Real.sqrt ((xs.map fun x => (x - m) ^ 2).sum / (xs.length - 1)))

/-- A row with columns `ι`. -/
abbrev Row (ι : Type) (α : Type) := ι → α

/-- `Normalizer`, 258-267: `mean` and `std` are `None` or not at the same time; `eps` is 1e-5 -/
structure Normalizer (ι : Type) where
  stats : Option (Row ι Num × Row ι Num)
  rate : ℝ

noncomputable def eps : ℝ := 1 / 10 ^ 5

noncomputable def Normalizer.new : Normalizer ι := ⟨none, 1 / 2⟩

/-- `std[std < eps] = eps` for an entry -/
noncomputable def floorStd : Num → Num
  | some s => if s < eps then some eps else some s
  | none => none

/-- `update_stats`, 269-289 -/
noncomputable def Normalizer.update (n : Normalizer ι) (data : List (Row ι ℝ)) : Normalizer ι :=
  let column := fun i => data.map fun row => row i
  let old := fun (x : Num) (y : Num) => Num.add (Num.mul (some (1 - n.rate)) x) (Num.mul (some n.rate) y)
  let (m, s) := match n.stats with
    | none => (fun i => mean (column i), fun i => std (column i))
    | some (m, s) => (fun i => old (m i) (mean (column i)), fun i => old (s i) (std (column i)))
  let rate := n.rate - 1 / 100
  ⟨some (m, fun i => floorStd (s i)), if rate < 1 / 100 then 1 / 100 else rate⟩

/-- `normalize`, 291-305 (without the update) -/
noncomputable def Normalizer.normalize (n : Normalizer ι) (val : Row ι Num) : Row ι Num :=
  match n.stats with
  | none => val
  | some (m, s) => fun i => Num.div (Num.sub (val i) (m i)) (s i)

/-- `denormalize`, 307-317 -/
noncomputable def Normalizer.denormalize (n : Normalizer ι) (val : Row ι Num) : Row ι Num :=
  match n.stats with
  | none => val
  | some (m, s) => fun i => Num.add (Num.mul (s i) (val i)) (m i)

/-- A transition: observation with `d` columns, action with columns `α`. -/
structure Transition (d : Nat) (α : Type) where
  obs : Row (Fin d) ℝ
  next : Row (Fin d) ℝ
  action : Row α ℝ
  reward : ℝ

/-- The columns of a target: the observation and, if rewards are learned, one more -/
abbrev Target (d : Nat) (learned : Bool) := Fin d ⊕ Fin learned.toNat

/-- `DynamicModel`, 33-49, without the network: `learned` is `learned_rewards`, `process` is `obs_process_fn` for a row (the identity if there is none) -/
structure Model (d : Nat) (α ο : Type) (learned : Bool) where
  noDelta : List Int
  process : Row (Fin d) ℝ → Row ο ℝ
  input : Normalizer (ο ⊕ α)
  target : Normalizer (Target d learned)

/-- An index of a dimension: negative ones count from the end, others raise -/
def resolve (d : Nat) (dim : Int) : Except Err (Fin d) :=
  if h : 0 ≤ dim ∧ dim < d then .ok ⟨dim.toNat, by omega⟩
  else if h : -(d : Int) ≤ dim ∧ dim < 0 then .ok ⟨(d + dim).toNat, by omega⟩
  else .error .indexError

/-- `for dim in no_delta_list: x[:, dim] = y[:, dim]` for a row, 110-111, 165-166 -/
def override (dims : List Int) (x y : Row (Fin d) β) : Except Err (Row (Fin d) β) :=
  match dims with
  | [] => .ok x
  | dim :: dims => match resolve d dim with
    | .error e => .error e
    | .ok i => override dims (fun j => if j = i then y j else x j) y

/-- the same for all rows -/
def targetObs (dims : List Int) : List (Transition d α) → Except Err (List (Row (Fin d) ℝ))
  | [] => .ok []
  | t :: ts => match override dims (fun i => t.next i - t.obs i) t.next with
    | .error e => .error e
    | .ok r => match targetObs dims ts with
      | .error e => .error e
      | .ok rs => .ok (r :: rs)

/-- `get_model_input`, 119-139, for a row -/
def Model.modelInput (m : Model d α ο learned) (obs : Row (Fin d) ℝ) (action : Row α ℝ) : Row (ο ⊕ α) ℝ :=
  Sum.elim (m.process obs) action

/-- `process_batch`, 141-173: the model with its normalisers updated, the inputs and the targets. (A batch without rows
does not raise for an index that is out of range here.) -/
noncomputable def Model.processBatch (m : Model d α ο learned) (batch : List (Transition d α)) :
    Except Err (Model d α ο learned × List (Row (ο ⊕ α) Num) × List (Row (Target d learned) Num)) :=
  match targetObs m.noDelta batch with
  | .error e => .error e
  | .ok obs =>
    let modelIn := batch.map fun t => m.modelInput t.obs t.action
    let target : List (Row (Target d learned) ℝ) :=
      List.zipWith (fun o (t : Transition d α) => Sum.elim o (fun _ => t.reward)) obs batch
    let input := m.input.update modelIn
    let targetN := m.target.update target
    .ok ({ m with input := input, target := targetN }, modelIn.map fun r => input.normalize fun i => some (r i),
      target.map fun r => targetN.normalize fun i => some (r i))

/-- `sample`, 81-117, for a row: `net` is the wrapped model's `sample`. The predicted observation and the predicted
reward (no column if rewards are not learned) -/
noncomputable def Model.sample (m : Model d α ο learned) (net : Row (ο ⊕ α) Num → Row (Target d learned) Num)
    (action : Row α ℝ) (obs : Row (Fin d) ℝ) : Except Err (Row (Fin d) Num × Row (Fin learned.toNat) Num) :=
  let modelIn := m.input.normalize fun i => some (m.modelInput obs action i)
  let preds := m.target.denormalize (net modelIn)
  let next := fun i => preds (.inl i)
  match override m.noDelta (fun i => Num.add (next i) (some (obs i))) next with
  | .error e => .error e
  | .ok next => .ok (next, fun i => preds (.inr i))

end Dyn

end Verif
