import Verif.Model.Trainer
import Verif.Model.Logging

/-!
# Checkpoints

`emote/callbacks/checkpointing.py`, and the state dicts of `emote/callbacks/loss.py` and of `AlphaLoss` in
`emote/algorithms/sac.py`. `torch.save` and `torch.load` are taken to be a faithful pair (whatever was saved to a path
is loaded from it, by value); saving overwrites. A save is one step: a crash in the middle of it is not modelled.
Log messages and the time measurement are left out.
-/

namespace Verif

/-- What `load_state_dict` is told to load. -/
structure LoadFlags where
  weights : Bool
  optimizers : Bool
  hparams : Bool
  deriving DecidableEq, Repr

/-- Values of the trainer's state dict: some of them are strings. -/
class PyStr (V : Type u) where
  ofStr : String → V

/-- An object with a state dict, `checkpointing.py` 12-25. `W` is the world, in which the objects live. -/
structure Restoree (W : Type u) (S : Type v) where
  name : String
  stateDict : W → S
  loadState : S → LoadFlags → W → W × Except Exc Unit

/-- The content of a checkpoint file, `checkpointing.py` 76-84. -/
structure CkptFile (S : Type u) (V : Type v) where
  states : Dict String S
  training : Dict String V
  deriving DecidableEq, Repr

/-- Folders and checkpoint files. -/
structure CkDisk (S : Type u) (V : Type v) where
  folders : List String
  files : Dict String (CkptFile S V)
  deriving DecidableEq, Repr

/-- `os.path.join(folder, name)`, for a name that does not begin with a slash. -/
def joinPath (folder name : String) : String :=
  if folder.toList = [] ∨ folder.toList.getLast? = some '/' then folder ++ name else folder ++ "/" ++ name

/-- `f"checkpoint_{i}.tar"`, `checkpointing.py` 74 and 158 -/
def checkpointName (i : Int) : String := "checkpoint_" ++ toString i ++ ".tar"

def checkpointPath (folder : String) (i : Int) : String := joinPath folder (checkpointName i)

section

variable {W : Type u} {S : Type v} {V : Type w}

/-- `Checkpointer`, fields of `checkpointing.py` 53-58. -/
structure Saver (W : Type u) (S : Type v) where
  folder : String
  index : Int
  restorees : List (Restoree W S)

/-- `Checkpointer.__init__`, `checkpointing.py` 44-68: names must be unique. The default of `checkpoint_index` is 0. -/
def Saver.new (restorees : List (Restoree W S)) (runRoot sub : String) (index : Int := 0) : Except Err (Saver W S) :=
  if (restorees.map Restoree.name).Nodup then .ok ⟨joinPath runRoot sub, index, restorees⟩ else .error .valueError

/-- `begin_training`, `checkpointing.py` 70-71 -/
def makeFolder (folder : String) (d : CkDisk S V) : CkDisk S V :=
  if folder ∈ d.folders then d else { d with folders := d.folders ++ [folder] }

/-- `Checkpointer.end_cycle`, `checkpointing.py` 73-92. Saving into a missing folder raises (a `RuntimeError` of torch). -/
def Saver.endCycle [PyNum V] [PyStr V] (c : Saver W S) (bpStep bpSamples : V) (w : W) (d : CkDisk S V) :
    (Saver W S × CkDisk S V) × Except Err (Dict String V) :=
  let path := checkpointPath c.folder c.index
  let content : CkptFile S V := ⟨c.restorees.map fun r => (r.name, r.stateDict w),
    [("latest_checkpoint", PyStr.ofStr path), ("bp_step", bpStep), ("bp_samples", bpSamples),
      ("checkpoint_index", PyNum.ofInt c.index)]⟩
  if c.folder ∈ d.folders then
    (({ c with index := c.index + 1 }, { d with files := d.files.set path content }),
      .ok [("latest_checkpoint", PyStr.ofStr path), ("checkpoint_index", PyNum.ofInt c.index)])
  else ((c, d), .error .runtimeError)

/-- The loop of `restore_state`, `checkpointing.py` 163-167 -/
def loadAll (states : Dict String S) (flags : LoadFlags) : List (Restoree W S) → W → W × Except Exc Unit
  | [], w => (w, .ok ())
  | r :: rs, w => match states.get? r.name with
    | none => (w, .error (.error .keyError))
    | some s => thenDo (r.loadState s flags w) fun w => loadAll states flags rs w

/-- `CheckpointLoader`, fields of `checkpointing.py` 130-138. -/
structure CkptLoader (W : Type u) (S : Type v) where
  folder : String
  index : Int
  flags : LoadFlags
  restorees : List (Restoree W S)

/-- `CheckpointLoader.__init__`, `checkpointing.py` 118-149: names must be unique here too. -/
def CkptLoader.new (restorees : List (Restoree W S)) (runRoot sub : String) (index : Int) (flags : LoadFlags) :
    Except Err (CkptLoader W S) :=
  if (restorees.map Restoree.name).Nodup then .ok ⟨joinPath runRoot sub, index, flags, restorees⟩ else .error .valueError

/-- `CheckpointLoader.restore_state`, `checkpointing.py` 151-174: the training state is returned if hyper-parameters
are loaded, else an empty dict. -/
def CkptLoader.restore (c : CkptLoader W S) (d : CkDisk S V) (w : W) : W × Except Exc (Dict String V) :=
  if c.folder ∈ d.folders then
    match d.files.get? (checkpointPath c.folder c.index) with
    | none => (w, .error (.error .osError))
    | some file => match loadAll file.states c.flags c.restorees w with
      | (w, .error e) => (w, .error e)
      | (w, .ok ()) => (w, .ok (if c.flags.hparams then file.training else []))
  else (w, .error (.error .valueError))

/-- The world of a training run with checkpoints: everything else, the disk, and the checkpointer's index. -/
structure CkWorld (W : Type u) (S : Type v) (V : Type w) where
  user : W
  disk : CkDisk S V
  index : Int

/-- The `Checkpointer` as the trainer sees it. `end_cycle` declares `bp_step` and `bp_samples`; if the state lacks one,
that is a `TypeError` (`C42_plain`). -/
def saverCallback [PyNum V] [PyStr V] (ident : Nat) (interval : Int) (folder : String) (rs : List (Restoree W S)) :
    Callback (CkWorld W S V) V where
  ident := ident
  order := 0
  cycle := some interval
  hook := fun h st w => match h with
    | .beginTraining => ({ w with disk := makeFolder folder w.disk }, .ok none)
    | .endCycle => match st.get? "bp_step", st.get? "bp_samples" with
      | some a, some b => match (Saver.mk folder w.index rs).endCycle a b w.user w.disk with
        | ((c, d), .ok res) => ({ w with disk := d, index := c.index }, .ok (some res))
        | ((c, d), .error e) => ({ w with disk := d, index := c.index }, .error (.error e))
      | _, _ => (w, .error (.error .typeError))
    | _ => (w, .ok none)

/-- The `CheckpointLoader` as the trainer sees it. -/
def loaderCallback (ident : Nat) (c : CkptLoader W S) : Callback (CkWorld W S V) V where
  ident := ident
  order := 0
  cycle := none
  hook := fun h _ w => match h with
    | .restoreState => match c.restore w.disk w.user with
      | (u, .ok res) => ({ w with user := u }, .ok (some res))
      | (u, .error e) => ({ w with user := u }, .error e)
    | _ => (w, .ok none)

end

/-! ## State dicts of losses -/

/-- A `LossCallback`, `loss.py` 19-55: its network's and its optimizer's state, its learning rate schedule and its
logs. (The optimizer is never missing: `__init__` uses it.) -/
structure LossCb (N : Type u) (O : Type v) (L : Type w) where
  network : Option N
  optimizer : O
  schedule : L
  logs : Logs

/-- The state dict, `loss.py` 90-96: the entries of the logs, `optimizer_state_dict`, `network_state_dict` (which may be
missing). -/
structure LossSaved (N : Type u) (O : Type v) where
  network : Option N
  optimizer : Option O
  logs : Logs.Saved

namespace LossCb

variable {N : Type u} {O : Type v} {L : Type w}

/-- `state_dict`, `loss.py` 90-96 -/
def stateDict (c : LossCb N O L) : LossSaved N O := ⟨c.network, some c.optimizer, c.logs.stateDict⟩

/-- `super().load_state_dict`, `logging.py` 111-128 -/
def loadLogs (s : LossSaved N O) (flags : LoadFlags) (c : LossCb N O L) : Res (LossCb N O L) Unit :=
  if flags.hparams then Res.lift (fun l => { c with logs := l }) (c.logs.loadStateDict s.logs) else (c, .ok ())

/-- `loss.py` 108-109 -/
def loadOptimizer (s : LossSaved N O) (flags : LoadFlags) (c : LossCb N O L) : Res (LossCb N O L) Unit :=
  if flags.optimizers then match s.optimizer with
    | none => (c, .error .keyError)
    | some o => loadLogs s flags { c with optimizer := o }
  else loadLogs s flags c

/-- `load_state_dict`, `loss.py` 98-111. That a network or an optimizer rejects a state is not modelled. -/
def loadStateDict (s : LossSaved N O) (flags : LoadFlags) (c : LossCb N O L) : Res (LossCb N O L) Unit :=
  if c.network.isSome && flags.weights then match s.network with
    | none => (c, .error .keyError)
    | some n => loadOptimizer s flags { c with network := some n }
  else loadOptimizer s flags c

end LossCb

/-- `AlphaLoss`, `sac.py` 286-317: a loss without network, the logarithm of alpha, and the schedule of the target
entropy. -/
structure AlphaCb (A : Type u) (O : Type v) (L : Type w) (E : Type x) where
  base : LossCb A O L
  lnAlpha : A
  entropy : E

namespace AlphaCb

variable {A : Type u} {O : Type v} {L : Type w} {E : Type x}

/-- `state_dict`, `sac.py` 337-340 -/
def stateDict (c : AlphaCb A O L E) : LossSaved A O := { c.base.stateDict with network := some c.lnAlpha }

/-- `load_state_dict`, `sac.py` 342-358: `ln_alpha` is loaded whatever the flags say. -/
def loadStateDict (s : LossSaved A O) (flags : LoadFlags) (c : AlphaCb A O L E) : Res (AlphaCb A O L E) Unit :=
  match s.network with
  | none => (c, .error .keyError)
  | some a => Res.lift (fun b => { c with lnAlpha := a, base := b })
      (LossCb.loadStateDict { s with network := none } flags c.base)

end AlphaCb

end Verif
