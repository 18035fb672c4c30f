import Verif.Model.AtomicStore
import Verif.Model.Checkpoint

/-!
# Writing a checkpoint to disk

`emote/callbacks/checkpointing.py` 73-92 and 151-174, byte by byte. `torch.save(state_dict, final_path)` opens the final path itself
(an existing file is emptied), writes one piece after the other, and closes the file; nothing is synced and nothing is renamed. That
is the behaviour of torch, of Python's files and of the file system, and given here; the disk and the ways in which a process stops
are those of `Verif/Model/AtomicStore.lean`. A piece that was written is with the operating system; since the pieces may be as small
as one byte, the process may stop with any beginning of the file written.
-/

namespace Verif

namespace CkptWrite

/-- What a process does to a file. -/
inductive Act (B : Type) where
  | openW (path : String)
  | append (path : String) (bytes : List B)

/-- One act on the disk. -/
def Act.run {B : Type} : Act B → Disk B → Disk B
  | .openW p, d =>
    match d.dir p with
    | none =>
      { d with
        dir := fun q => if q = p then some d.next else d.dir q
        files := fun i => if i = d.next then ([], false) else d.files i
        pending := d.dir :: d.pending
        next := d.next + 1 }
    | some i => { d with files := fun j => if j = i then ([], false) else d.files j }
  | .append p bs, d =>
    match d.dir p with
    | none => d
    | some i => { d with files := fun j => if j = i then ((d.files i).1 ++ bs, false) else d.files j }

/-- A sequence of acts. -/
def runActs {B : Type} (acts : List (Act B)) (d : Disk B) : Disk B := acts.foldl (fun d a => a.run d) d

/-- `torch.save(state_dict, final_path)`, 85 -/
def torchSave {B : Type} (path : String) (pieces : List (List B)) : List (Act B) := .openW path :: pieces.map (.append path)

section

variable {B : Type} {W : Type u} {S : Type v} {V : Type w}

/-- What `Checkpointer.end_cycle` does to the disk, 73-87; `pieces` is how torch writes a state dict. The next checkpoint gets the
next index, 87. -/
def endCycleActs [PyNum V] [PyStr V] (pieces : CkptFile S V → List (List B)) (c : Saver W S) (bpStep bpSamples : V) (w : W) :
    Saver W S × List (Act B) :=
  let path := checkpointPath c.folder c.index
  ({ c with index := c.index + 1 }, torchSave path (pieces ⟨c.restorees.map fun r => (r.name, r.stateDict w),
    [("latest_checkpoint", PyStr.ofStr path), ("bp_step", bpStep), ("bp_samples", bpSamples),
      ("checkpoint_index", PyNum.ofInt c.index)]⟩))

/-- `CheckpointLoader.restore_state`, 151-174, from the bytes on disk: `load` is `torch.load`, which raises for a file that is not
complete. `folder` says whether the folder exists. -/
def restore (load : List B → Option (CkptFile S V)) (folder : Bool) (c : CkptLoader W S) (d : Disk B) (w : W) :
    W × Except Exc (Dict String V) :=
  if folder then
    match d.read (checkpointPath c.folder c.index) with
    | none => (w, .error (.error .osError))
    | some bytes =>
      match load bytes with
      | none => (w, .error (.error .runtimeError))
      | some file => match loadAll file.states c.flags c.restorees w with
        | (w, .error e) => (w, .error e)
        | (w, .ok ()) => (w, .ok (if c.flags.hparams then file.training else []))
  else (w, .error (.error .valueError))

end

end CkptWrite

end Verif
