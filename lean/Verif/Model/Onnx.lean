import Verif.Base.Dict
import Verif.Base.Res

/-!
# Queued exports

`emote/extra/onnx_exporter.py` 27-38, 133-170, 211-290, used by a main thread (thread 0) and any number of others.

One step of a thread is: one block under the lock of the metadata (atomic by C52), one operation on the queue, one look
at an event, one export. A schedule says who makes the next step, and how an export ends, if that step is one. Tracing
the policy and writing the file are left out. Values that are not strings come with what `str` gives for them.
-/

namespace Verif

namespace Onnx

/-- A key or value somebody passed as metadata. -/
inductive Text where
  | str (s : String)
  /-- not a string; with the result of `str` -/
  | other (s : Except Err String)

/-- The calls. `exportSync` is `export`; it and `process_pending_exports` are for the main thread. -/
inductive Call where
  | addMetadata (key value : Text)
  | exportSync (md : List (Text × Text))
  | exportThreadsafe (md : List (Text × Text))
  | process

/-- A queued export: 27-31, with its number -/
structure Request where
  id : Nat
  props : Dict String String
  deriving DecidableEq, Repr

/-- How `_export_onnx` (211-230) ends: with a storage item, or raising before or after the version has been counted. -/
inductive Outcome (ι : Type u) where
  | ok (item : ι)
  | early (e : Err)
  | late (e : Err)

/-- Where a thread is in its call. -/
inductive Pc (ι : Type u) where
  | start
  /-- before the request is put into the queue, 265-266 -/
  | put (r : Request) (sync : Bool)
  /-- in the loop of 162-170; then it waits for a request or returns -/
  | loop (own : Option Nat)
  /-- has taken a request from the queue -/
  | exporting (r : Request) (own : Option Nat)
  /-- `block_until_complete`, 36-38 -/
  | wait (id : Nat)
  | done (r : Except Err (Option ι))

/-- What happens, in order. -/
inductive Ev (ι : Type u) where
  /-- metadata was set on the exporter -/
  | added (key value : String)
  /-- a request got its metadata; with the metadata of the call -/
  | merged (t : Nat) (id : Nat) (md : List (Text × Text))
  | put (id : Nat)
  /-- a model was saved -/
  | exported (id : Nat) (version : Nat) (props : Dict String String) (item : ι)
  | failed (id : Nat)
  /-- a call of `export` or `export_threadsafe` is about to return -/
  | returned (t : Nat) (id : Nat) (item : ι)

/-- A thread. -/
structure OThread (ι : Type u) where
  todo : List Call
  cur : Option (Call × Pc ι) := none

/-- The exporter (78-134) and the threads. -/
structure State (ι : Type u) where
  metadata : Dict String String
  queue : List Request
  counter : Nat
  /-- the events that have been set, with their return values -/
  events : Nat → Option ι
  next : Nat
  threads : Nat → OThread ι
  log : List (Ev ι)

variable {ι : Type u}

/-- A new exporter. -/
def start (calls : Nat → List Call) : State ι := ⟨[], [], 0, fun _ => none, 0, fun t => ⟨calls t, none⟩, []⟩

/-- 233-252 -/
def clean : List (Text × Text) → Except Err (Dict String String)
  | md => md.foldl (fun acc p => match acc with
    | .error e => .error e
    | .ok d => match p with
      | (.other _, _) => .error .typeError
      | (.str k, .str v) => .ok (Dict.set d k v)
      | (.str k, .other (.ok v)) => .ok (Dict.set d k v)
      | (.str _, .other (.error _)) => .error .typeError) (.ok [])

/-- 137-147. The message of the second `TypeError` has the format `{key:r}`, which raises a `ValueError`. -/
def convert : Text → Text → Except Err (String × String)
  | .other _, _ => .error .typeError
  | .str k, .str v => .ok (k, v)
  | .str k, .other (.ok v) => .ok (k, v)
  | .str _, .other (.error _) => .error .valueError

/-- `m | metadata`, 258-260 -/
def merge (m md : Dict String String) : Dict String String := Dict.update m md

def State.setThread (s : State ι) (t : Nat) (th : OThread ι) : Nat → OThread ι :=
  fun u => if u = t then th else s.threads u

/-- The thread goes on at a place. -/
def State.goto (s : State ι) (t : Nat) (c : Call) (pc : Pc ι) : State ι :=
  { s with threads := s.setThread t ⟨(s.threads t).todo, some (c, pc)⟩ }

/-- `_export` up to the request, 232-265 -/
def State.request (s : State ι) (t : Nat) (c : Call) (md : List (Text × Text)) (sync : Bool) : State ι :=
  match clean md with
  | .error e => s.goto t c (.done (.error e))
  | .ok d => { s.goto t c (.put ⟨s.next, merge s.metadata d⟩ sync) with
      next := s.next + 1
      log := s.log ++ [.merged t s.next md] }

/-- After the loop of `process_pending_exports` -/
def afterLoop : Option Nat → Pc ι
  | none => .done (.ok none)
  | some id => .wait id

/-- A step in a call. -/
def advance (s : State ι) (t : Nat) (c : Call) (o : Outcome ι) : Pc ι → State ι
  | .start => match c with
    | .addMetadata key value => match convert key value with
      | .error e => s.goto t c (.done (.error e))
      -- 149-150
      | .ok (k, v) => { s.goto t c (.done (.ok none)) with
          metadata := s.metadata.set k v
          log := s.log ++ [.added k v] }
    | .exportSync md => s.request t c md true
    | .exportThreadsafe md => s.request t c md false
    | .process => s.goto t c (.loop none)
  -- 266-270
  | .put r sync => { s.goto t c (if sync then .loop (some r.id) else .wait r.id) with
      queue := s.queue ++ [r]
      log := s.log ++ [.put r.id] }
  -- 165-168
  | .loop own => match s.queue with
    | [] => s.goto t c (afterLoop own)
    | r :: q => { s.goto t c (.exporting r own) with queue := q }
  -- 32-34 and 211-230
  | .exporting r own => match o with
    | .ok item => { s.goto t c (.loop own) with
        counter := s.counter + 1
        events := fun id => if id = r.id then some item else s.events id
        log := s.log ++ [.exported r.id s.counter r.props item] }
    | .early e => { s.goto t c (.done (.error e)) with log := s.log ++ [.failed r.id] }
    | .late e => { s.goto t c (.done (.error e)) with
        counter := s.counter + 1
        log := s.log ++ [.failed r.id] }
  -- 36-38
  | .wait id => match s.events id with
    | none => s
    | some item => { s.goto t c (.done (.ok (some item))) with log := s.log ++ [.returned t id item] }
  | .done _ => { s with threads := s.setThread t ⟨(s.threads t).todo, none⟩ }

/-- One turn: a thread, and the outcome if it exports. -/
def step (s : State ι) (x : Nat × Outcome ι) : State ι :=
  match (s.threads x.1).cur with
  | none => match (s.threads x.1).todo with
    | [] => s
    | c :: cs => { s with threads := s.setThread x.1 ⟨cs, some (c, .start)⟩ }
  | some (c, pc) => advance s x.1 c x.2 pc

def run (s : State ι) (turns : List (Nat × Outcome ι)) : State ι := turns.foldl step s

end Onnx

end Verif
