import Verif.Model.Logging

/-!
# Checks that end a training run

`emote/callbacks/testing.py` and `LossProgressCheck` of `emote/models/callbacks.py` 65-120. A logged number may be NaN,
which is `none` here: every comparison with it is false. Other numbers are exact rationals. `TrainingShutdownException`
is `shutdown`; the untyped `Exception` is `failed`.
-/

namespace Verif

namespace Checks

/-- A float: `none` is NaN. -/
abbrev Num := Option Rat

/-- `a > b` -/
def Num.gt : Num → Num → Bool
  | some a, some b => decide (a > b)
  | _, _ => false

/-- `sum(xs) / len(xs)` and `np.mean`: NaN if one is NaN -/
def total : List Num → Num
  | [] => some 0
  | some x :: xs => (total xs).map (x + ·)
  | none :: _ => none

/-- How `end_cycle` ends: it always raises something. -/
inductive Ending where
  | shutdown
  | failed
  | error (e : Err)
  deriving DecidableEq

/-- The key of the loss, `testing.py` 24 -/
def lossKey (name : String) : String := "loss/" ++ name ++ "_loss"

/-- `FinalLossTestCheck.end_cycle`, `testing.py` 22-27. A callback is its name and its `scalar_logs`. The pairs are what
`zip` gives. -/
def finalLossPairs : List ((String × Dict String Num) × Num) → Ending
  | [] => .shutdown
  | ((name, logs), cutoff) :: rest => match logs.get? (lossKey name) with
    | none => .error .keyError
    | some loss => if Num.gt loss cutoff then .failed else finalLossPairs rest

/-- `FinalLossTestCheck.end_cycle`, `testing.py` 22-27 -/
def finalLoss (cbs : List (String × Dict String Num)) (cutoffs : List Num) : Ending := finalLossPairs (cbs.zip cutoffs)

/-- `FinalRewardTestCheck.end_cycle`, `testing.py` 46-56 -/
def finalReward (scalars : Dict String Num) (windowed : Dict String (List Num)) (useWindowed : Bool) (key : String)
    (cutoff : Num) : Ending :=
  let reward : Except Err Num :=
    if useWindowed then match windowed.get? key with
      | none => .error .keyError
      | some data => if data.length = 0 then .error .zeroDivision else .ok ((total data).map (· / data.length))
    else match scalars.get? key with
      | none => .error .keyError
      | some r => .ok r
  match reward with
  | .error e => .error e
  | .ok r => if Num.gt cutoff r then .failed else .shutdown

/-- The fields of `LossProgressCheck` that change, `models/callbacks.py` 78-79. An entry has two numbers, the mean
absolute error of the predicted observations and of the predicted rewards. -/
structure Progress where
  errs : List (Num × Num)
  averages : List (Num × Num)
  deriving DecidableEq

/-- `np.mean(np.array(errs), axis=0)`; of an empty list NaN -/
def average (errs : List (Num × Num)) : Num × Num :=
  if errs.length = 0 then (none, none)
  else ((total (errs.map Prod.fst)).map (· / errs.length), (total (errs.map Prod.snd)).map (· / errs.length))

/-- `begin_batch` with the errors of this batch, `models/callbacks.py` 83-103; `numBp // 10` is the window -/
def Progress.beginBatch (numBp : Nat) (err : Num × Num) (p : Progress) : Progress :=
  let p := { p with errs := p.errs ++ [err] }
  if p.errs.length ≥ numBp / 10 then ⟨[], p.averages ++ [average p.errs]⟩ else p

/-- `end_cycle`, `models/callbacks.py` 105-114: the loop over `range(len - 4)` -/
def Progress.endCycle (p : Progress) : Ending :=
  if (List.range (p.averages.length - 4)).any fun i =>
    match p.averages[i + 4]?, p.averages[i]? with
    | some b, some a => Num.gt b.1 a.1 || Num.gt b.2 a.2
    | _, _ => false
  then .failed else .shutdown

/-- The check after some batches. -/
def Progress.after (numBp : Nat) (errs : List (Num × Num)) : Progress :=
  errs.foldl (fun p e => p.beginBatch numBp e) ⟨[], []⟩

end Checks

end Verif
