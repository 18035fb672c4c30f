import Verif.Base.Dict

/-!
# The training loop

`emote/trainer.py` 26-145 and `emote/callbacks/generic.py`. Everything that is not the trainer's own state dict
(the callbacks' fields, the memory, the environment, objects that values of the state refer to) is one world
`W`, which every hook may change. A hook gets the state (`**self.state`, a copy) and returns nothing or a dict,
or raises. A loop that goes on for ever is cut off after a number of batches that is an argument.
-/

namespace Verif

/-- An exception: the one that asks for a shutdown (`trainer.py` 22), or any other. -/
inductive Exc where
  | shutdown
  | error (e : Err)
  deriving DecidableEq, Repr

/-- The hooks of a callback, `callback.py` 189-226. `end_training` gets the exception. -/
inductive Hook where
  | restoreState | beginTraining | beginCycle | beginBatch | backward | endBatch | endCycle
  | endTraining (ex : Exc)
  deriving DecidableEq, Repr

/-- Values of the state dict: some of them are Python integers. -/
class PyNum (V : Type u) where
  ofInt : Int → V
  toInt : V → Option Int
  toInt_ofInt : ∀ n, toInt (ofInt n) = some n

/-- A callback as the trainer sees it. `ident` tells objects apart; nothing here looks at it. -/
structure Callback (W : Type u) (V : Type v) where
  ident : Nat
  order : Int
  cycle : Option Int
  hook : Hook → Dict String V → W → W × Except Exc (Option (Dict String V))

/-- A trainer, `trainer.py` 38-53, with its data loader (`iter`, then `next`, which is `none` when the data is
exhausted) and the shutdown signal given to `train`. -/
structure Trainer (W : Type u) (V : Type v) where
  callbacks : List (Callback W V)
  sizeKey : String
  iter : W → W × Except Exc Unit
  next : W → W × Except Exc (Option (Dict String V))
  signal : W → W × Except Exc Bool

/-- The world and the trainer's state dict. -/
structure TState (W : Type u) (V : Type v) where
  world : W
  state : Dict String V

/-- How `train` ends: it returns, it raises the exception of a hook, or it raises the exception made in line 79. -/
inductive Outcome where
  | returned
  | raised (ex : Exc)
  | beginFailed
  deriving DecidableEq, Repr

/-- `a; b` -/
def thenDo {σ : Type u} {ε : Type v} (r : σ × Except ε Unit) (f : σ → σ × Except ε Unit) : σ × Except ε Unit :=
  match r with
  | (s, .error e) => (s, .error e)
  | (s, .ok ()) => f s

namespace Trainer

variable {W : Type u} {V : Type v}

/-- `sorted(callbacks, key=lambda cb: cb._order)`, a stable sort, `trainer.py` 47. -/
def sortCallbacks (cbs : List (Callback W V)) : List (Callback W V) :=
  cbs.mergeSort fun a b => decide (a.order ≤ b.order)

/-- `__init__`, `trainer.py` 38-53 -/
def new (cbs : List (Callback W V)) (sizeKey : String) (iter : W → W × Except Exc Unit)
    (next : W → W × Except Exc (Option (Dict String V))) (signal : W → W × Except Exc Bool) : Trainer W V :=
  ⟨sortCallbacks cbs, sizeKey, iter, next, signal⟩

/-- `_cyclic_callbacks`, `trainer.py` 48-50 -/
def cyclic (t : Trainer W V) : List (Callback W V) :=
  t.callbacks.filter fun cb => match cb.cycle with
    | none => false
    | some n => decide (n > 0)

/-- `if updated_state := cb.hook(**self.state): self.state.update(updated_state)`, `trainer.py` 106-107 and so on. -/
def callHook (h : Hook) (cb : Callback W V) (s : TState W V) : TState W V × Except Exc Unit :=
  match cb.hook h s.state s.world with
  | (w, .error e) => ({ s with world := w }, .error e)
  | (w, .ok none) => ({ s with world := w }, .ok ())
  | (w, .ok (some d)) => (⟨w, s.state.update d⟩, .ok ())

/-- The loop over callbacks of `_restore_state`, `_begin_training`, `_begin_batch`, `_backward`, `_end_batch` and
`_end_training`, `trainer.py` 104-145. -/
def phase (h : Hook) : List (Callback W V) → TState W V → TState W V × Except Exc Unit
  | [], s => (s, .ok ())
  | cb :: cbs, s => thenDo (callHook h cb s) fun s => phase h cbs s

/-- `k % cb.cycle == 0` -/
def divides (k : Int) (cb : Callback W V) : Bool := match cb.cycle with
  | none => false
  | some n => decide (k % n = 0)

/-- `_begin_cycle`, `trainer.py` 114-119 -/
def beginCycle (t : Trainer W V) (k : Int) (s : TState W V) : TState W V × Except Exc Unit :=
  phase .beginCycle (t.cyclic.filter (divides (k - 1))) s

/-- `_end_cycle`, `trainer.py` 136-140 -/
def endCycle (t : Trainer W V) (k : Int) (s : TState W V) : TState W V × Except Exc Unit :=
  phase .endCycle (t.cyclic.filter (divides k)) s

/-- `if shutdown_signal(): raise TrainingShutdownException`, `trainer.py` 88-89 -/
def checkSignal (t : Trainer W V) (s : TState W V) : TState W V × Except Exc Unit :=
  match t.signal s.world with
  | (w, .error e) => ({ s with world := w }, .error e)
  | (w, .ok true) => ({ s with world := w }, .error .shutdown)
  | (w, .ok false) => ({ s with world := w }, .ok ())

/-- `trainer.py` 84-86 -/
def loadBatch [PyNum V] (t : Trainer W V) (k : Int) (batch : Dict String V) (s : TState W V) :
    TState W V × Except Exc Unit :=
  let st := (s.state.update batch).set "bp_step" (PyNum.ofInt k)
  match st.get? "bp_samples", st.get? t.sizeKey with
  | none, _ => ({ s with state := st }, .error (.error .keyError))
  | _, none => ({ s with state := st }, .error (.error .keyError))
  | some a, some b => match PyNum.toInt a, PyNum.toInt b with
    | some m, some n => ({ s with state := st.set "bp_samples" (PyNum.ofInt (m + n)) }, .ok ())
    | _, _ => ({ s with state := st }, .error (.error .typeError))

/-- The body of the loop, `trainer.py` 84-95 -/
def batchStep [PyNum V] (t : Trainer W V) (k : Int) (batch : Dict String V) (s : TState W V) :
    TState W V × Except Exc Unit :=
  thenDo (t.loadBatch k batch s) fun s =>
  thenDo (t.checkSignal s) fun s =>
  thenDo (t.beginCycle k s) fun s =>
  thenDo (phase .beginBatch t.callbacks s) fun s =>
  thenDo (phase .backward t.callbacks s) fun s =>
  thenDo (phase .endBatch t.callbacks s) fun s =>
  t.endCycle k s

/-- The loop, `trainer.py` 83-95, cut off after `fuel` batches: `none` means that it goes on. -/
def loop [PyNum V] (t : Trainer W V) : Nat → Int → TState W V → TState W V × Option (Except Exc Unit)
  | 0, _, s => (s, none)
  | fuel + 1, k, s => match t.next s.world with
    | (w, .error e) => ({ s with world := w }, some (.error e))
    | (w, .ok none) => ({ s with world := w }, some (.ok ()))
    | (w, .ok (some batch)) => match t.batchStep k batch { s with world := w } with
      | (s, .error e) => (s, some (.error e))
      | (s, .ok ()) => loop t fuel (k + 1) s

/-- `trainer.py` 82-95: `count(…)` of what is not a number raises. -/
def runLoop [PyNum V] (t : Trainer W V) (fuel : Nat) (s : TState W V) : TState W V × Option (Except Exc Unit) :=
  match s.state.get? "bp_step" with
  | none => (s, some (.error (.error .keyError)))
  | some v => match PyNum.toInt v with
    | none => (s, some (.error (.error .typeError)))
    | some k => match t.iter s.world with
      | (w, .error e) => ({ s with world := w }, some (.error e))
      | (w, .ok ()) => t.loop fuel k { s with world := w }

/-- `trainer.py` 97-102: what is done with the outcome of the loop. An exception of `end_training` goes on to the
caller. -/
def finish (t : Trainer W V) (s : TState W V) : Option (Except Exc Unit) → TState W V × Option Outcome
  | none => (s, none)
  | some (.ok ()) => (s, some .returned)
  | some (.error ex) => match phase (.endTraining ex) t.callbacks s with
    | (s, .error e) => (s, some (.raised e))
    | (s, .ok ()) => (s, some (match ex with
      | .shutdown => .returned
      | .error e => .raised (.error e)))

/-- `trainer.py` 67-72 -/
def prepare [PyNum V] (t : Trainer W V) (s : TState W V) : TState W V × Except Exc Unit :=
  let s := { s with state := (s.state.set "bp_samples" (PyNum.ofInt 0)).set "bp_step" (PyNum.ofInt 1) }
  thenDo (phase .restoreState t.callbacks s) fun s => phase .beginTraining t.callbacks s

/-- `train`, `trainer.py` 55-102 -/
def train [PyNum V] (t : Trainer W V) (fuel : Nat) (s : TState W V) : TState W V × Option Outcome :=
  match t.prepare s with
  | (s, .error .shutdown) => (s, some .returned)
  | (s, .error (.error _)) => (s, some .beginFailed)
  | (s, .ok ()) =>
    let r := t.runLoop fuel s
    t.finish r.1 r.2

end Trainer

/-- `BackPropStepsTerminator`, `generic.py` 5-17 -/
def terminator {W : Type u} {V : Type v} (ident : Nat) (steps : Int) : Callback W V where
  ident := ident
  order := 0
  cycle := some steps
  hook := fun h _ w => match h with
    | .endCycle => (w, .error .shutdown)
    | _ => (w, .ok none)

end Verif
