import Verif.Model.Trainer

/-!
# What a training run may look like

The observer's view of a run: a list of events, namely hook calls (with the state the hook saw, and what it
returned or raised) and batches fetched from the data loader. Nothing here uses the trainer's code; callbacks
only lend their identity and cycle length.
-/

namespace Verif.Spec

open Verif

variable {W : Type u} {V : Type v}

/-- Something that happens in a run: a hook call; a batch coming from the data loader; the data loader saying that
there are no more, or raising; the shutdown signal saying that training may go on, or putting a stop to it (by
raising, or by saying that training shall end, which counts as raising `Exc.shutdown`). -/
inductive Event (V : Type v) where
  | call (h : Hook) (ident : Nat) (seen : Dict String V) (result : Except Exc (Option (Dict String V)))
  | batch (b : Dict String V)
  | exhausted
  | noData (ex : Exc)
  | goOn
  | stop (ex : Exc)

/-- An event without its data. -/
inductive Shape where
  | hook (h : Hook) (ident : Nat)
  | batch
  | exhausted
  | noData
  | goOn
  | stop
  deriving DecidableEq, Repr

def Event.shape : Event V → Shape
  | .call h i _ _ => .hook h i
  | .batch _ => .batch
  | .exhausted => .exhausted
  | .noData _ => .noData
  | .goOn => .goOn
  | .stop _ => .stop

def shapes (es : List (Event V)) : List Shape := es.map Event.shape

/-- The event raises `ex`. -/
def Event.Raised (ex : Exc) : Event V → Prop
  | .call _ _ _ (.error e) => e = ex
  | .call _ _ _ (.ok _) => False
  | .batch _ => False
  | .exhausted => False
  | .noData e => e = ex
  | .goOn => False
  | .stop e => e = ex

/-- Nothing raised. -/
def NoRaise (es : List (Event V)) : Prop := ∀ e ∈ es, ∀ ex, ¬ e.Raised ex

/-- The last event raised `ex`, and none before raised anything. -/
def RaisedBy (ex : Exc) (es : List (Event V)) : Prop := ∃ a x, es = a ++ [x] ∧ NoRaise a ∧ x.Raised ex

/-- The event is what the callbacks, the data loader and the shutdown signal of `t` do: a hook call of one of
them, with its result; a batch the loader gives, or its end; what the signal says; an exception of the loader or the signal. -/
def Event.Genuine (t : Trainer W V) : Event V → Prop
  | .call h i seen r => ∃ cb ∈ t.callbacks, cb.ident = i ∧ ∃ w, r = (cb.hook h seen w).2
  | .batch b => ∃ w, (t.next w).2 = .ok (some b)
  | .exhausted => ∃ w, (t.next w).2 = .ok none
  | .goOn => ∃ w, (t.signal w).2 = .ok false
  | .noData ex => ∃ w, (t.iter w).2 = .error ex ∨ (t.next w).2 = .error ex
  | .stop ex => ∃ w, (t.signal w).2 = .error ex ∨ (t.signal w).2 = .ok true ∧ ex = .shutdown

/-- One hook of all callbacks. -/
def all (h : Hook) (cbs : List (Callback W V)) : List Shape := cbs.map fun cb => .hook h cb.ident

/-- The callbacks with a positive cycle that divides `k`. -/
def due (k : Int) (cbs : List (Callback W V)) : List (Callback W V) :=
  cbs.filter fun cb => match cb.cycle with
    | some n => decide (0 < n ∧ n ∣ k)
    | none => false

/-- The beginning of training. -/
def opening (cbs : List (Callback W V)) : List Shape := all .restoreState cbs ++ all .beginTraining cbs

/-- Batch number `k`. -/
def oneBatch (cbs : List (Callback W V)) (k : Int) : List Shape :=
  .batch :: .goOn :: (all .beginCycle (due (k - 1) cbs) ++ (all .beginBatch cbs ++ (all .backward cbs ++
    (all .endBatch cbs ++ all .endCycle (due k cbs)))))

/-- `n` batches, the first one being number `k`. -/
def batches (cbs : List (Callback W V)) (k : Int) : Nat → List Shape
  | 0 => []
  | n + 1 => oneBatch cbs k ++ batches cbs (k + 1) n

/-- What a hook's result does to the state. -/
def applyResult (st : Dict String V) : Except Exc (Option (Dict String V)) → Dict String V
  | .ok (some d) => st.update d
  | _ => st

/-- The state after fetching batch number `k`: the values of the batch replace others, `bp_step` is `k`, and
`bp_samples` has grown by the size of the batch. -/
structure Loaded [PyNum V] (sizeKey : String) (k : Int) (st batch st' : Dict String V) : Prop where
  step : st'.get? "bp_step" = some (PyNum.ofInt k)
  samples : sizeKey ≠ "bp_step" → ∀ a c m n, (st.update batch).get? "bp_samples" = some a →
    (st.update batch).get? sizeKey = some c → PyNum.toInt a = some m → PyNum.toInt c = some n →
    st'.get? "bp_samples" = some (PyNum.ofInt (m + n))
  others : ∀ key, key ≠ "bp_step" → key ≠ "bp_samples" → st'.get? key = (st.update batch).get? key

/-- Starting from `st`, with `k` the number of the next batch, every hook of `es` sees the state as the earlier
results and batches left it, and nothing else. -/
def Flows [PyNum V] (sizeKey : String) : Int → Dict String V → List (Event V) → Dict String V → Prop
  | _, st, [], st' => st' = st
  | k, st, .call _ _ seen r :: es, st' => seen = st ∧ Flows sizeKey k (applyResult st r) es st'
  | k, st, .batch b :: es, st' => ∃ st₁, Loaded sizeKey k st b st₁ ∧ Flows sizeKey (k + 1) st₁ es st'
  | k, st, .exhausted :: es, st' => Flows sizeKey k st es st'
  | k, st, .noData _ :: es, st' => Flows sizeKey k st es st'
  | k, st, .goOn :: es, st' => Flows sizeKey k st es st'
  | k, st, .stop _ :: es, st' => Flows sizeKey k st es st'

/-- The state has no number under `key`. -/
def NoNumber [PyNum V] (key : String) (st : Dict String V) : Prop :=
  ∀ v n, st.get? key = some v → PyNum.toInt v ≠ some n

/-- How `train` ends after the loop was left by `ex`, the `end_training` hooks not raising. -/
def outcomeOf : Exc → Outcome
  | .shutdown => .returned
  | .error e => .raised (.error e)

/-- The events `es` of `end_training` and the outcome `o`. -/
inductive Closing (cbs : List (Callback W V)) (ex : Exc) (es : List (Event V)) (o : Outcome) : Prop where
  | done : shapes es = all (.endTraining ex) cbs → NoRaise es → o = outcomeOf ex → Closing cbs ex es o
  | raised (e : Exc) : shapes es <+: all (.endTraining ex) cbs → RaisedBy e es → o = .raised e → Closing cbs ex es o

/-- Why the loop is left by `ex` after `n` whole batches, `es` being the events since the beginning and `st` the
state at the beginning. -/
inductive Cause [PyNum V] (cbs : List (Callback W V)) (sizeKey : String) (st : Dict String V) (k : Int) (n : Nat)
    (ex : Exc) (es : List (Event V)) : Prop where
  /-- A hook of the next batch raised it. -/
  | hook : opening cbs ++ batches cbs k n ++ [.batch, .goOn] <+: shapes es → shapes es <+: opening cbs ++ batches cbs k (n + 1) →
      RaisedBy ex es → Cause cbs sizeKey st k n ex es
  /-- The data loader raised it. -/
  | loader : shapes es = opening cbs ++ batches cbs k n ++ [.noData] → RaisedBy ex es → Cause cbs sizeKey st k n ex es
  /-- The shutdown signal did it, right after the next batch was fetched. -/
  | signal : shapes es = opening cbs ++ batches cbs k n ++ [.batch, .stop] → RaisedBy ex es →
      Cause cbs sizeKey st k n ex es
  /-- The state has no usable step number. -/
  | noStep (e : Err) (st' : Dict String V) : n = 0 → ex = .error e → shapes es = opening cbs → NoRaise es →
      Flows sizeKey k st es st' → NoNumber "bp_step" st' → Cause cbs sizeKey st k n ex es
  /-- The state has no usable sample count, or no usable batch size. -/
  | noSize (e : Err) (st' : Dict String V) : ex = .error e → shapes es = opening cbs ++ batches cbs k n ++ [.batch] →
      NoRaise es → Flows sizeKey k st es st' → NoNumber "bp_samples" st' ∨ NoNumber sizeKey st' →
      Cause cbs sizeKey st k n ex es

/-- The possible runs, cut off after `fuel` batches, whose first batch is number `k`, starting from the state
`st`: `es` are the events and `o` is the outcome. -/
inductive Run [PyNum V] (cbs : List (Callback W V)) (sizeKey : String) (st : Dict String V) (k : Int) (fuel : Nat)
    (es : List (Event V)) (o : Option Outcome) : Prop where
  /-- A hook raised before training began; no `end_training`. -/
  | failedEarly (ex : Exc) : shapes es <+: opening cbs → RaisedBy ex es →
      o = some (if ex = .shutdown then .returned else .beginFailed) → Run cbs sizeKey st k fuel es o
  /-- Still going on. -/
  | running : shapes es = opening cbs ++ batches cbs k fuel → NoRaise es → o = none → Run cbs sizeKey st k fuel es o
  /-- The data is exhausted. -/
  | exhausted (n : Nat) : n < fuel → shapes es = opening cbs ++ batches cbs k n ++ [.exhausted] → NoRaise es →
      o = some .returned →
      Run cbs sizeKey st k fuel es o
  /-- Something raised `ex` after `n` whole batches; then comes `end_training`. -/
  | stopped (es₁ es₂ : List (Event V)) (n : Nat) (ex : Exc) (o' : Outcome) : es = es₁ ++ es₂ → n ≤ fuel →
      Cause cbs sizeKey st k n ex es₁ → Closing cbs ex es₂ o' → o = some o' → Run cbs sizeKey st k fuel es o

end Verif.Spec
