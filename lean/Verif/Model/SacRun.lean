import Verif.Model.Checkpoint

/-!
# Training runs of soft actor-critic with checkpoints

The callbacks of `emote/algorithms/sac.py` (`QLoss` 26-78, `QTarget` 81-176, `PolicyLoss` 179-256, `AlphaLoss` 259-358) in the training
loop (`Model/Trainer.lean`) with a checkpointer and a checkpoint loader (`Model/Checkpoint.lean`).

Outside: what the networks compute, the gradients and the optimizers, and the schedules. A batch has the random numbers of the policy in
it, so that two runs with the same batches draw the same numbers. Batches come from a list. The arguments of hooks are looked up as in
C43. Scalars are logged (exactly).
-/

namespace Verif

namespace SacRun

/-- What `LossCallback.backward` (`loss.py` 57-66) leaves: parameters, optimizer, learning rate schedule, and the scalars it logs -/
structure Learned (N O L : Type) where
  net : N
  opt : O
  sched : L
  logs : List (String × Rat)

/-- The outside: networks `N`, temperatures `A` (their logarithms), optimizers `O`, learning rate schedules `L`, entropy schedules `E`,
batches `B`, targets `T`. -/
structure Lib (N A O L E B T : Type) where
  /-- `QTarget.begin_batch`, 146-171: from policy, temperature and target networks -/
  target : B → N → A → N → N → T × List (String × Rat)
  /-- a step of `QLoss` -/
  qLoss : B → T → N → O → L → Learned N O L
  /-- a step of `PolicyLoss`, with the temperature and both critics -/
  piLoss : B → A → N → N → N → O → L → Learned N O L
  /-- a step of `AlphaLoss`, with the policy and the entropy schedule -/
  alphaLoss : B → N → E → A → O → L → Learned A O L
  /-- `clamp_max_`, 331 -/
  clamp : A → A
  /-- what `AlphaLoss.end_batch` logs, 333-334 -/
  alphaLogs : A → E → List (String × Rat)
  /-- `t_entropy.step()`, 335 -/
  nextEntropy : E → E
  /-- `soft_update_from_to(source, target, tau)`, 21-23 -/
  soft : N → N → N

/-- A loss callback -/
structure Loss (N O L : Type) where
  net : N
  opt : O
  sched : L
  logs : Logs

/-- `log_scalar`, one after the other -/
def note (xs : List (String × Rat)) (l : Logs) : Logs := xs.foldl (fun l x => l.logScalar x.1 x.2) l

/-- After a step -/
def Loss.learn {N O L : Type} (c : Loss N O L) (x : Learned N O L) : Loss N O L := ⟨x.net, x.opt, x.sched, note x.logs c.logs⟩

/-- All that is learned, and the logs -/
structure State (N A O L E : Type) where
  q1 : Loss N O L
  q2 : Loss N O L
  pi : Loss N O L
  alpha : Loss A O L
  entropy : E
  q1t : N
  q2t : N
  targetLogs : Logs

variable {N A O L E B T : Type}

/-- The constructors, 50-73, 114-144, 211-239, 282-315: target networks that are not given are copies. 250 is the default length of the
logs' windows. -/
def State.new (q1 q2 pi : N) (lnAlpha : A) (opt : O × O × O × O) (sched : L × L × L × L) (entropy : E) (q1t q2t : Option N) :
    State N A O L E where
  q1 := ⟨q1, opt.1, sched.1, Logs.new 250⟩
  q2 := ⟨q2, opt.2.1, sched.2.1, Logs.new 250⟩
  pi := ⟨pi, opt.2.2.1, sched.2.2.1, Logs.new 250⟩
  alpha := ⟨lnAlpha, opt.2.2.2, sched.2.2.2, Logs.new 250⟩
  entropy := entropy
  q1t := q1t.getD q1
  q2t := q2t.getD q2
  targetLogs := Logs.new 250

/-! ### Checkpoints -/

/-- The state dict of a loss, of `AlphaLoss`, or of a callback that has logs only -/
inductive Saved (N A O : Type) where
  | loss (s : LossSaved N O)
  | alpha (s : LossSaved A O)
  | logs (s : Logs.Saved)

/-- The loss as a `LossCallback` of `Model/Checkpoint.lean` -/
def Loss.cb (c : Loss N O L) : LossCb N O L := ⟨some c.net, c.opt, c.sched, c.logs⟩

/-- `LossCallback.load_state_dict`, `loss.py` 98-111 -/
def Loss.load (s : LossSaved N O) (flags : LoadFlags) (c : Loss N O L) : Loss N O L × Except Err Unit :=
  match c.cb.loadStateDict s flags with
  | (⟨some n, o, l, g⟩, r) => (⟨n, o, l, g⟩, r)
  | (⟨none, _, _, _⟩, r) => (c, r)

/-- `AlphaLoss` as in `Model/Checkpoint.lean` -/
def State.alphaCb (s : State N A O L E) : AlphaCb A O L E := ⟨⟨none, s.alpha.opt, s.alpha.sched, s.alpha.logs⟩, s.alpha.net, s.entropy⟩

/-- `AlphaLoss.load_state_dict`, `sac.py` 342-358 -/
def State.loadAlpha (s : LossSaved A O) (flags : LoadFlags) (w : State N A O L E) : State N A O L E × Except Err Unit :=
  let r := w.alphaCb.loadStateDict s flags
  ({ w with alpha := ⟨r.1.lnAlpha, r.1.base.optimizer, r.1.base.schedule, r.1.base.logs⟩, entropy := r.1.entropy }, r.2)

/-- `LoggingMixin.load_state_dict` for `QTarget`, `logging.py` 111-128 -/
def State.loadTarget (s : Logs.Saved) (flags : LoadFlags) (w : State N A O L E) : State N A O L E × Except Err Unit :=
  if flags.hparams then ({ w with targetLogs := (w.targetLogs.loadStateDict s).1 }, (w.targetLogs.loadStateDict s).2) else (w, .ok ())

/-- A process: what is learned, and the batches that are still to come -/
structure Proc (N A O L E B : Type) where
  learn : State N A O L E
  data : List B

/-- An exception of `load_state_dict` -/
def toExc : Except Err Unit → Except Exc Unit
  | .ok () => .ok ()
  | .error e => .error (.error e)

/-- The losses -/
inductive Part where
  | q1 | q2 | pi | alpha
  deriving DecidableEq, Repr

/-- The names that are given to the constructors (53, 221, 292) -/
abbrev Names := Part → String

/-- A loss as an object with a state dict. A state dict of another kind of callback is a `KeyError` (or another error). -/
def restoreeOf (names : Names) : Part → Restoree (Proc N A O L E B) (Saved N A O)
  | .q1 => ⟨names .q1, fun w => .loss w.learn.q1.cb.stateDict, fun s flags w => match s with
      | .loss s => ({ w with learn := { w.learn with q1 := (w.learn.q1.load s flags).1 } }, toExc (w.learn.q1.load s flags).2)
      | _ => (w, .error (.error .keyError))⟩
  | .q2 => ⟨names .q2, fun w => .loss w.learn.q2.cb.stateDict, fun s flags w => match s with
      | .loss s => ({ w with learn := { w.learn with q2 := (w.learn.q2.load s flags).1 } }, toExc (w.learn.q2.load s flags).2)
      | _ => (w, .error (.error .keyError))⟩
  | .pi => ⟨names .pi, fun w => .loss w.learn.pi.cb.stateDict, fun s flags w => match s with
      | .loss s => ({ w with learn := { w.learn with pi := (w.learn.pi.load s flags).1 } }, toExc (w.learn.pi.load s flags).2)
      | _ => (w, .error (.error .keyError))⟩
  | .alpha => ⟨names .alpha, fun w => .alpha w.learn.alphaCb.stateDict, fun s flags w => match s with
      | .alpha s => ({ w with learn := (w.learn.loadAlpha s flags).1 }, toExc (w.learn.loadAlpha s flags).2)
      | _ => (w, .error (.error .keyError))⟩

/-- `QTarget` as an object with a state dict; its name is that of the class, `callback.py` 187. -/
def targetRestoree : Restoree (Proc N A O L E B) (Saved N A O) :=
  ⟨"QTarget", fun w => .logs w.learn.targetLogs.stateDict, fun s flags w => match s with
    | .logs s => ({ w with learn := (w.learn.loadTarget s flags).1 }, toExc (w.learn.loadTarget s flags).2)
    | _ => (w, .error (.error .keyError))⟩

/-- Everything is given to the checkpointer. -/
def restorees (names : Names) : List (Restoree (Proc N A O L E B) (Saved N A O)) :=
  [restoreeOf names .q1, restoreeOf names .q2, restoreeOf names .pi, restoreeOf names .alpha, targetRestoree]

/-! ### In the training loop -/

/-- Values of the trainer's state: numbers, strings, and a data group with the batch and, when it has been computed, the target -/
inductive Val (B T : Type) where
  | int (n : Int)
  | str (s : String)
  | group (b : B) (t : Option T)

instance : PyNum (Val B T) where
  ofInt := .int
  toInt
    | .int n => some n
    | _ => none
  toInt_ofInt _ := rfl

instance : PyStr (Val B T) := ⟨.str⟩

/-- The world of a run -/
abbrev World (N A O L E B T : Type) := CkWorld (Proc N A O L E B) (Saved N A O) (Val B T)

/-- Do something with what is learned. -/
def onState (f : State N A O L E → State N A O L E) (w : World N A O L E B T) : World N A O L E B T :=
  { w with user := { w.user with learn := f w.user.learn } }

/-- `backward` of a loss -/
def stepPart (lib : Lib N A O L E B T) (b : B) (t : T) (s : State N A O L E) : Part → State N A O L E
  | .q1 => { s with q1 := s.q1.learn (lib.qLoss b t s.q1.net s.q1.opt s.q1.sched) }
  | .q2 => { s with q2 := s.q2.learn (lib.qLoss b t s.q2.net s.q2.opt s.q2.sched) }
  | .pi => { s with pi := s.pi.learn (lib.piLoss b s.alpha.net s.q1.net s.q2.net s.pi.net s.pi.opt s.pi.sched) }
  | .alpha => { s with alpha := s.alpha.learn (lib.alphaLoss b s.pi.net s.entropy s.alpha.net s.alpha.opt s.alpha.sched) }

/-- `AlphaLoss.end_batch`, 328-335 -/
def endAlpha (lib : Lib N A O L E B T) (s : State N A O L E) : State N A O L E :=
  { s with
    alpha := { s.alpha with net := lib.clamp s.alpha.net, logs := note (lib.alphaLogs (lib.clamp s.alpha.net) s.entropy) s.alpha.logs }
    entropy := lib.nextEntropy s.entropy }

/-- `end_batch` of a loss: only `AlphaLoss` has one. -/
def endPart (lib : Lib N A O L E B T) (s : State N A O L E) : Part → State N A O L E
  | .alpha => endAlpha lib s
  | _ => s

/-- A loss as the trainer sees it, with the data group "default". A `QLoss` needs the target. -/
def lossCallback (lib : Lib N A O L E B T) (part : Part) : Callback (World N A O L E B T) (Val B T) where
  ident := match part with
    | .q1 => 1
    | .q2 => 2
    | .pi => 3
    | .alpha => 4
  order := 0
  cycle := none
  hook := fun h st w => match h with
    | .backward => match st.get? "default" with
      | some (.group b (some t)) => (onState (fun s => stepPart lib b t s part) w, .ok none)
      | some (.group _ none) => (w, .error (.error .typeError))
      | _ => (w, .error (.error .keyError))
    | .endBatch => (onState (fun s => endPart lib s part) w, .ok none)
    | _ => (w, .ok none)

/-- `QTarget.begin_batch` computes the target, 146-171 -/
def targetOf (lib : Lib N A O L E B T) (b : B) (s : State N A O L E) : T × List (String × Rat) :=
  lib.target b s.pi.net s.alpha.net s.q1t s.q2t

/-- `QTarget.end_batch`, 173-176 -/
def endTarget (lib : Lib N A O L E B T) (s : State N A O L E) : State N A O L E :=
  { s with q1t := lib.soft s.q1.net s.q1t, q2t := lib.soft s.q2.net s.q2t }

/-- `QTarget` as the trainer sees it; it is run after the others, 131. -/
def targetCallback (lib : Lib N A O L E B T) : Callback (World N A O L E B T) (Val B T) where
  ident := 5
  order := 1
  cycle := none
  hook := fun h st w => match h with
    | .beginBatch => match st.get? "default" with
      | some (.group b _) =>
        (onState (fun s => { s with targetLogs := note (targetOf lib b s).2 s.targetLogs }) w,
          .ok (some [("default", .group b (some (targetOf lib b w.user.learn).1))]))
      | _ => (w, .error (.error .keyError))
    | .endBatch => (onState (endTarget lib) w, .ok none)
    | _ => (w, .ok none)

/-- The next batch, as a memory loader gives it; `size` is its number of samples. -/
def nextBatch (size : B → Int) (w : World N A O L E B T) :
    World N A O L E B T × Except Exc (Option (Dict String (Val B T))) :=
  match w.user.data with
  | [] => (w, .ok none)
  | b :: rest => ({ w with user := { w.user with data := rest } }, .ok (some [("default", .group b none), ("batch_size", .int (size b))]))

/-- A run: the losses in any order, `QTarget`, a checkpointer, and perhaps a checkpoint loader. Nobody asks for a shutdown. -/
def trainer (lib : Lib N A O L E B T) (size : B → Int) (order : List Part) (names : Names) (folder : String) (interval : Int)
    (resume : Option Int) : Trainer (World N A O L E B T) (Val B T) :=
  Trainer.new
    ((match resume with
      | none => []
      | some i => [loaderCallback 0 ⟨folder, i, ⟨true, true, true⟩, restorees names⟩]) ++
      order.map (lossCallback lib) ++ [targetCallback lib, saverCallback 6 interval folder (restorees names)])
    "batch_size" (fun w => (w, .ok ())) (nextBatch size) (fun w => (w, .ok false))

/-- The world after `n` batches of such a run -/
def after (t : Trainer (World N A O L E B T) (Val B T)) (n : Nat) (w : World N A O L E B T) : World N A O L E B T :=
  (t.train n ⟨w, []⟩).1.world

end SacRun

end Verif
