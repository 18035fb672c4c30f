import Verif.Model.Checkpoint
import Verif.Spec.Concurrent
import Verif.Base.Res

/-!
# The CRUD storage

`emote/extra/crud_storage.py` 15-212, used by any number of threads, while others change files of the directory.

One step of a thread is: one call of `AtomicInt.increment` (atomic by C50), one block under the lock of the item list
(atomic by C52), one look at the file system, one run of the saver, one write of a file. A schedule says who makes the
next step. `datetime.now()` is an argument of the call. What `abspath` and `makedirs` do is left out; the directory
exists from the beginning, and may be deleted by others. The write in `update` is taken not to fail.
-/

namespace Verif

namespace Crud

/-- `StorageItem`, `crud_storage.py` 43-52, with the number in its handle. -/
structure Item where
  handle : Int
  stamp : Nat
  path : String
  deriving DecidableEq, Repr

/-- The directory with its files. -/
structure Files (D : Type u) where
  present : Bool
  content : Dict String D

/-- The calls. -/
inductive Call (D : Type u) where
  /-- `create_with_saver`, at a local time (as formatted) and a UTC time -/
  | withSaver (date : String) (stamp : Nat) (saver : String → Files D → Files D × Except Err Unit)
  /-- `create_from_filepath`; `inside` says whether the file is in the directory of the storage -/
  | fromPath (path : String) (inside : Bool) (stamp : Nat)
  | update (h : Int) (data : D)
  | items
  | delete (h : Int)
  | get (h : Int)
  | latest

/-- Results. -/
inductive Value where
  | item (i : Item)
  | found (i : Option Item)
  | all (l : List Item)
  | flag (b : Bool)
  | nothing
  deriving DecidableEq, Repr

abbrev Result := Except Err Value

/-- The storage: `crud_storage.py` 62-79. -/
structure Config where
  directory : String
  fixedPrefix : String
  extension : String

/-- The file name, 135-138 -/
def Config.path (c : Config) (date : String) (h : Int) : String :=
  joinPath c.directory (c.fixedPrefix ++ date ++ "_" ++ toString h ++ "." ++ c.extension)

/-- `create_with_data`, 81-88: it is `create_with_saver` with a saver that writes the data. Opening a file in a
directory that is gone raises. -/
def Call.withData {D : Type u} (date : String) (stamp : Nat) (data : D) : Call D :=
  .withSaver date stamp fun path f =>
    if f.present then ({ f with content := f.content.set path data }, .ok ()) else (f, .error .osError)

/-- Where a thread is in its call. -/
inductive Pc (D : Type u) where
  | start
  /-- before `increment` in the loop of 129-140 -/
  | number
  /-- before the test whether the file exists -/
  | check (h : Int)
  /-- before the saver is called -/
  | save (h : Int)
  /-- before the assertion that the file is there -/
  | verify (h : Int)
  /-- before the item is put into the list -/
  | append (i : Item)
  /-- before the file is written in `update` -/
  | write (path : String) (data : D)
  | done (r : Result)

/-- A thread. -/
structure CThread (D : Type u) where
  todo : List (Call D)
  cur : Option (Call D × Pc D) := none

/-- Everything. -/
structure State (D : Type u) where
  counter : Int
  items : List Item
  files : Files D
  threads : Nat → CThread D
  hist : List (HEvent (Call D) Result)

variable {D : Type u}

/-- A new storage (62-79) on a directory, and threads with calls to make. -/
def start (files : Files D) (calls : Nat → List (Call D)) : State D := ⟨0, [], files, fun t => ⟨calls t, none⟩, []⟩

/-- A step in a call, without the thread: the new storage and the next place. -/
def advance (c : Config) (counter : Int) (items : List Item) (files : Files D) :
    Call D → Pc D → (Int × List Item × Files D) × Pc D
  -- 118-119
  | .withSaver _ _ _, .start =>
    ((counter, items, files), if files.present then .number else .done (.error .runtimeError))
  -- 134
  | .withSaver _ _ _, .number => ((counter + 1, items, files), .check counter)
  -- 139-140
  | .withSaver date _ _, .check h =>
    ((counter, items, files), if (files.content.get? (c.path date h)).isSome then .number else .save h)
  -- 143
  | .withSaver date _ saver, .save h =>
    ((counter, items, (saver (c.path date h) files).1), match (saver (c.path date h) files).2 with
      | .ok () => .verify h
      | .error e => .done (.error e))
  -- 142, 144-146
  | .withSaver date stamp _, .verify h =>
    ((counter, items, files), if (files.content.get? (c.path date h)).isSome then .append ⟨h, stamp, c.path date h⟩
      else .done (.error .assertionError))
  -- 97-102
  | .fromPath path inside _, .start =>
    ((counter, items, files), if (files.content.get? path).isSome then
      if inside then .number else .done (.error .runtimeError) else .done (.error .assertionError))
  -- 105-106
  | .fromPath path _ stamp, .number => ((counter + 1, items, files), .append ⟨counter, stamp, path⟩)
  -- 108-110 and 147-149
  | _, .append i => ((counter, items ++ [i], files), .done (.ok (.item i)))
  -- 153-154, with `get`
  | .update h data, .start =>
    ((counter, items, files), match items.find? (fun i => i.handle == h) with
      | none => .done (.error .assertionError)
      | some i => .write i.path data)
  -- 155-156
  | .update _ _, .write path data =>
    ((counter, items, { files with content := files.content.set path data }), .done (.ok .nothing))
  -- 158-165
  | .items, .start => ((counter, items, files), .done (.ok (.all items)))
  -- 167-191
  | .delete h, .start => match items.find? (fun i => i.handle == h) with
    | none => ((counter, items, files), .done (.ok (.flag false)))
    | some i => if (files.content.get? i.path).isSome then
        ((counter, items.erase i, { files with content := files.content.erase i.path }), .done (.ok (.flag true)))
      else ((counter, items.erase i, files), .done (.error .runtimeError))
  -- 193-200
  | .get h, .start => ((counter, items, files), .done (.ok (.found (items.find? fun i => i.handle == h))))
  -- 202-212
  | .latest, .start => ((counter, items, files), .done (.ok (.found items.getLast?)))
  -- not reachable
  | _, pc => ((counter, items, files), pc)

/-- Who makes the next step: a thread, or somebody else who changes files. -/
inductive Turn (D : Type u) where
  | thread (t : Nat)
  | outside (f : Files D → Files D)

def State.setThread (s : State D) (t : Nat) (th : CThread D) : Nat → CThread D :=
  fun u => if u = t then th else s.threads u

/-- One turn. -/
def step (c : Config) (s : State D) : Turn D → State D
  | .outside f => { s with files := f s.files }
  | .thread t => match (s.threads t).cur with
    | none => match (s.threads t).todo with
      | [] => s
      | call :: cs => { s with threads := s.setThread t ⟨cs, some (call, .start)⟩, hist := s.hist ++ [.inv t call] }
    | some (call, .done r) =>
      { s with threads := s.setThread t ⟨(s.threads t).todo, none⟩, hist := s.hist ++ [.ret t call r] }
    | some (call, pc) => match advance c s.counter s.items s.files call pc with
      | ((counter, items, files), pc') =>
        { s with
          counter := counter
          items := items
          files := files
          threads := s.setThread t ⟨(s.threads t).todo, some (call, pc')⟩ }

def run (c : Config) (s : State D) (turns : List (Turn D)) : State D := turns.foldl (step c) s

end Crud

end Verif
