import Verif.Model.Serialize

/-!
# Writing an export to disk

`emote/memory/table.py` 280-347 and 451-483: both formats write a zip file through `atomic_write` of the
package `atomicwrites`, which creates a temporary file in the directory of the target, and on success flushes,
fsyncs and renames it and syncs the directory; on an exception it deletes the temporary file. The behaviour of
`atomicwrites`, of `ZipFile` (the central directory is written when it is closed, which happens before the
commit as it is the inner context manager) and of the file system is trusted and given here.
-/

namespace Verif

variable {B : Type}

/-- A file system: the directory (names to files), the contents of the files with the mark whether they have
reached the disk, and the directories since the last directory sync, each of which may be the one on disk. -/
structure Disk (B : Type) where
  dir : String → Option Nat
  files : Nat → List B × Bool
  pending : List (String → Option Nat)
  next : Nat

namespace Disk

/-- What is read from a path. -/
def read (d : Disk B) (path : String) : Option (List B) := (d.dir path).map fun i => (d.files i).1

end Disk

/-- The effects of a process, with its user-space write buffer as state. -/
inductive Eff (B : Type) where
  | create (path : String)
  | write (bytes : List B)          -- into the buffer of the open file
  | flush (path : String)           -- the buffer goes to the operating system
  | fsync (path : String)
  | rename (src dst : String)
  | syncDir
  | unlink (path : String)
  | chmod (path : String)           -- contents are not affected

/-- One effect on disk and buffer. -/
def Eff.run : Eff B → Disk B × List B → Disk B × List B
  | .create p, (d, _) =>
    ({ d with
        dir := fun q => if q = p then some d.next else d.dir q
        files := fun i => if i = d.next then ([], false) else d.files i
        pending := d.dir :: d.pending
        next := d.next + 1 }, [])
  | .write bs, (d, buf) => (d, buf ++ bs)
  | .flush p, (d, buf) =>
    match d.dir p with
    | none => (d, buf)
    | some i => ({ d with files := fun j => if j = i then ((d.files i).1 ++ buf, false) else d.files j }, [])
  | .fsync p, (d, buf) =>
    match d.dir p with
    | none => (d, buf)
    | some i => ({ d with files := fun j => if j = i then ((d.files i).1, true) else d.files j }, buf)
  | .rename p q, (d, buf) =>
    match d.dir p with
    | none => (d, buf)
    | some i =>
      ({ d with
          dir := fun r => if r = q then some i else if r = p then none else d.dir r
          pending := d.dir :: d.pending }, buf)
  | .syncDir, (d, buf) => ({ d with pending := [] }, buf)
  | .unlink p, (d, buf) =>
    ({ d with dir := fun r => if r = p then none else d.dir r, pending := d.dir :: d.pending }, buf)
  | .chmod _, s => s

/-- A sequence of effects. -/
def Eff.runAll (effs : List (Eff B)) (s : Disk B × List B) : Disk B × List B :=
  effs.foldl (fun s e => e.run s) s

/-- How the process stops. -/
inductive Crash where
  | killed
  | powerLoss

/-- What may be found after the process stopped. Killed: everything given to the operating system is there.
Power loss: any of the directories since the last sync, and files not synced have arbitrary contents. -/
def AfterCrash (c : Crash) (d d' : Disk B) : Prop :=
  match c with
  | .killed => d' = d
  | .powerLoss => d'.next = d.next ∧ d'.pending = [] ∧ (d'.dir = d.dir ∨ d'.dir ∈ d.pending) ∧
      (∀ i, (d'.files i).2 = true) ∧ ∀ i, (d.files i).2 = true → d'.files i = d.files i

/-- The successful `store`: `chunks` are the pieces of the zip file, in the order in which the code and the
closing `ZipFile` write them. `table.py` 284-347 and 464-483. -/
def storeOk (tmp target : String) (chunks : List (List B)) : List (Eff B) :=
  [.create tmp] ++ chunks.map .write ++
  [.flush tmp, .fsync tmp, .rename tmp target, .syncDir, .chmod target]

/-- The `store` that raises after some pieces were written (`np.stack` of nothing, disk full): the context
manager of `atomic_write` deletes the temporary file. -/
def storeFail (tmp : String) (chunks : List (List B)) : List (Eff B) :=
  [.create tmp] ++ chunks.map .write ++ [.flush tmp, .unlink tmp]

/-- The effects of `store(path)` on a table, given how archives are encoded: `pieces a` for a successful
archive, and `started` pieces when collecting the columns raises (the version was written by then). -/
def storeEffects {V : Type u} (pieces : Archive V → List (List B)) (started : List (List B))
    (tmp path : String) (t : Table V) : List (Eff B) :=
  match t.serialize with
  | .ok a => storeOk tmp (path ++ ".zip") (pieces a)
  | .error _ => storeFail tmp started

end Verif
