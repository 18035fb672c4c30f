import Verif.Spec.Concurrent
import Verif.Model.Serialize
import Verif.Model.Adaptors

/-!
# A memory table shared by threads

`emote/memory/table.py`: every public method of `ArrayMemoryTable` works under `self._lock`, a lock that cannot be taken
twice. Here a method is a program that takes the lock, makes one access to a field of the table after the other, and
releases the lock; between any two of these steps other threads may run. Steps are: reading or assigning a field (so
`x += v` is two steps), one operation on a dict, one call of a strategy, copying one column into a batch or an export.
A schedule is a list of thread numbers. Python's own interpreter lock only makes interleavings coarser.

The timers (`self._timers`), which are entered outside the lock, are not part of this model; see C85 for them. The legacy
formats and what is done with the files are left out too.
-/

namespace Verif

namespace Shared

/-! ## Programs -/

/-- What happens between taking and releasing a lock: steps on the shared object `σ`, and a result. The next step may
depend on the object before the step. -/
inductive Prog (σ : Type u) (α : Type v) where
  | ret (a : α)
  | act (f : σ → σ) (k : σ → Prog σ α)

/-- The code of a whole call. -/
inductive Code (σ : Type u) (R : Type v) where
  | acquire (k : Code σ R)
  | release (k : Code σ R)
  | act (f : σ → σ) (k : σ → Code σ R)
  | ret (r : R)

/-- A program as part of a call. -/
def Prog.embed {σ : Type u} {α : Type v} {R : Type w} : Prog σ α → (α → Code σ R) → Code σ R
  | .ret a, k => k a
  | .act f p, k => .act f fun s => (p s).embed k

/-- `with lock: p`, and afterwards the result is computed from that of `p`. The lock is released however `p` ends. -/
def locked {σ : Type u} {α : Type v} {R : Type w} (p : Prog σ α) (post : α → R) : Code σ R :=
  .acquire (p.embed fun a => .release (.ret (post a)))

/-- A program that may raise. -/
abbrev Body (σ : Type u) (α : Type v) := Prog σ (Except Err α)

namespace Body

variable {σ : Type u} {α : Type v} {β : Type w}

/-- One statement after the other; an exception ends the program. -/
def andThen : Body σ α → (α → Body σ β) → Body σ β
  | .ret (.error e), _ => .ret (.error e)
  | .ret (.ok a), g => g a
  | .act f k, g => .act f fun s => andThen (k s) g

/-- Reading a field. -/
def read (f : σ → α) : Body σ α := .act id fun s => .ret (.ok (f s))

/-- Assigning a field. -/
def write (f : σ → σ) : Body σ Unit := .act f fun _ => .ret (.ok ())

/-- A call of another object that is done in one step. -/
def call (f : σ → Res σ α) : Body σ α := .act (fun s => (f s).1) fun s => .ret (f s).2

/-- `return` -/
def pure (a : α) : Body σ α := .ret (.ok a)

/-- `raise` -/
def raise (e : Err) : Body σ α := .ret (.error e)

/-- `for x in xs: …` -/
def forEach : List α → (α → Body σ Unit) → Body σ Unit
  | [], _ => pure ()
  | x :: xs, b => (b x).andThen fun _ => forEach xs b

end Body

/-! ## Threads -/

/-- A thread: the calls it still has to make, and the call it is in with what is left of its code. -/
structure Worker (C : Type w) (σ : Type u) (R : Type v) where
  todo : List C
  cur : Option (C × Code σ R) := none

/-- All threads, the shared object, the holder of the lock, and what was seen so far. -/
structure World (C : Type w) (σ : Type u) (R : Type v) where
  shared : σ
  lock : Option Nat
  threads : Nat → Worker C σ R
  hist : List (HEvent C R)

namespace World

variable {C : Type w} {σ : Type u} {R : Type v}

/-- The beginning: the lock is free, thread `t` will make the calls `calls t`. -/
def start (s : σ) (calls : Nat → List C) : World C σ R := ⟨s, none, fun t => ⟨calls t, none⟩, []⟩

/-- Thread `t` is replaced. -/
def setThread (s : World C σ R) (t : Nat) (th : Worker C σ R) : Nat → Worker C σ R :=
  fun u => if u = t then th else s.threads u

/-- Thread `t` takes one step. A thread that waits for the lock, or has nothing to do, does nothing in its turn. -/
def step (code : C → Code σ R) (s : World C σ R) (t : Nat) : World C σ R :=
  match (s.threads t).cur with
  | none => match (s.threads t).todo with
    | [] => s
    | c :: cs => { s with threads := s.setThread t ⟨cs, some (c, code c)⟩, hist := s.hist ++ [.inv t c] }
  | some (c, .ret r) =>
    { s with threads := s.setThread t ⟨(s.threads t).todo, none⟩, hist := s.hist ++ [.ret t c r] }
  | some (c, .acquire k) => match s.lock with
    | none => { s with lock := some t, threads := s.setThread t ⟨(s.threads t).todo, some (c, k)⟩ }
    | some _ => s
  | some (c, .act f k) =>
    { s with shared := f s.shared, threads := s.setThread t ⟨(s.threads t).todo, some (c, k s.shared)⟩ }
  | some (c, .release k) =>
    { s with lock := none, threads := s.setThread t ⟨(s.threads t).todo, some (c, k)⟩ }

/-- A whole schedule. -/
def run (code : C → Code σ R) (s : World C σ R) (sched : List Nat) : World C σ R := sched.foldl (step code) s

end World

/-! ## The methods of the table -/

namespace TableCode

open Body

variable {V : Type u}

/-- `del storage[to_eject]` for one storage, `table.py` 272-273 -/
def delOne (id : Int) : String × Store V → (String × Store V) × Except Err Unit
  | (name, .virt k tgt) => ((name, .virt k tgt), .ok ())
  | (name, .plain d) => match d.del? id with
    | none => ((name, .plain d), .error .keyError)
    | some d' => ((name, .plain d'), .ok ())
  | (name, .tag d) => match d.del? id with
    | none => ((name, .tag d), .error .keyError)
    | some d' => ((name, .tag d'), .ok ())

/-- The same as a step: the storage with number `i`. -/
def delAt (id : Int) (i : Nat) : Body (Table V) Unit := call fun t =>
  match t.data[i]? with
  | none => (t, .ok ())
  | some x => ({ t with data := List.set t.data i (delOne id x).1 }, (delOne id x).2)

/-- Body of the ejection loop, `table.py` 271-278. -/
def ejectOne (id : Int) : Body (Table V) Unit :=
  (read fun t => t.data.length).andThen fun n =>
  (forEach (List.range n) (delAt id)).andThen fun _ =>
  (read fun t => t.total).andThen fun total =>
  (call fun t => match t.lengths.get? id with
    | none => (t, .error .keyError)
    | some len => (t, .ok len)).andThen fun len =>
  (write fun t => { t with total := total - len }).andThen fun _ =>
  (write fun t => { t with lengths := t.lengths.erase id }).andThen fun _ =>
  (call fun t => Res.lift (fun s => { t with sampler := s }) (t.sampler.forget id)).andThen fun _ =>
  call fun t => Res.lift (fun s => { t with ejector := s }) (t.ejector.forget id)

/-- `_eject_count`, `table.py` 264-278 -/
def ejectCount (draws : List Nat) (count : Int) : Body (Table V) Unit :=
  (write fun t => { t with filled := true }).andThen fun _ =>
  (call fun t => Res.lift (fun s => { t with ejector := s }) (t.ejector.eject count draws)).andThen fun ids =>
  forEach ids ejectOne

/-- `_add_sequence_internal`, `table.py` 239-262 -/
def addInternal (draws : List Nat) (id0 : Int) (seq : Seqn V) : Body (Table V) Unit :=
  (read fun t => t.lengthKey).andThen fun key =>
  match seq.get? key with
  | none => raise .keyError
  | some rows =>
    let len := rows.length
    let id := Table.wrapId id0
    (read fun t => t.total).andThen fun (size : Int) =>
    (read fun t => t.maxlen).andThen fun (maxlen : Int) =>
    (if size + len > maxlen then ejectCount draws (size + len - maxlen) else pure ()).andThen fun _ =>
    (forEach seq fun nv => call (Table.writeColumn id nv)).andThen fun _ =>
    (read fun t => t.total).andThen fun total =>
    (write fun t => { t with total := total + len }).andThen fun _ =>
    (write fun t => { t with lengths := t.lengths.set id len }).andThen fun _ =>
    (call fun t => Res.lift (fun s => { t with sampler := s }) (t.sampler.track id len)).andThen fun _ =>
    call fun t => Res.lift (fun s => { t with ejector := s }) (t.ejector.track id len)

/-- One round of `_execute_gather`, `table.py` 173-192: the storage with number `i`. -/
def gatherAt (count n : Nat) (pts : List SamplePoint) (junk : String → Nat → Cell V) (i : Nat) :
    Body (Table V) (Dict String (List (Cell V))) := call fun t =>
  match t.data[i]? with
  | none => (t, .ok [])
  | some (name, s) =>
    let len := Table.localLen s n
    let total := count * len
    let buf := Table.workspace (t.temp.get? name) total (junk name)
    let r := Table.gatherStore t.data s len pts 0 (buf.take total)
    ({ t with temp := t.temp.set name (r.1 ++ buf.drop total) }, r.2.map fun _ => [(name, r.1)])

/-- `_execute_gather`, `table.py` 170-194 -/
def gather (count n : Nat) (pts : List SamplePoint) (junk : String → Nat → Cell V) :
    List Nat → Body (Table V) (Dict String (List (Cell V)))
  | [] => pure []
  | i :: is =>
    (gatherAt count n pts junk i).andThen fun x =>
    (gather count n pts junk is).andThen fun rest => pure (x ++ rest)

/-- What `sample` does under the lock, `table.py` 204-208 -/
def sample (count n : Nat) (c r : Nat → Nat) (junk : String → Nat → Cell V) :
    Body (Table V) (Dict String (List (Cell V))) :=
  (call fun t => Res.lift (fun s => { t with sampler := s }) (t.sampler.sample count n c r)).andThen fun pts =>
  (read fun t => t.data.length).andThen fun m =>
  gather count n pts junk (List.range m)

/-- `resize`, `table.py` 112-118 -/
def resize (newSize : Int) : Body (Table V) Unit :=
  (read fun t => t.maxlen).andThen fun maxlen =>
  if newSize < maxlen then raise .valueError
  else write fun t => { t with maxlen := newSize }

/-- `_clear`, `table.py` 125-145; the storages are built in one step. -/
def clear : Body (Table V) Unit :=
  (write fun t => { t with data := [], temp := [] }).andThen fun _ =>
  (write fun t => { t with lengths := [] }).andThen fun _ =>
  (write fun t => { t with total := 0 }).andThen fun _ =>
  (write fun t => { t with filled := false }).andThen fun _ =>
  call fun t => match Table.buildStores t.columns [] with
    | .error e => (t, .error e)
    | .ok data => ({ t with data := data }, .ok ())

/-- Copying the storages for an export, one after the other, `table.py` 312-330. -/
def copies : List Nat → Body (Table V) (Dict String (Store V))
  | [] => pure []
  | i :: is =>
    (read fun t => t.data[i]?).andThen fun x =>
    (copies is).andThen fun rest => pure (x.toList ++ rest)

/-- `_serialize`, `table.py` 283-330: what is written to the file -/
def serialize : Body (Table V) (Archive V) :=
  (read fun t => t.lengths.keys).andThen fun ids =>
  (read fun t => t.ejector.state).andThen fun ej =>
  (read fun t => t.sampler.state).andThen fun sa =>
  (read fun t => t.columns).andThen fun cols =>
  (read fun t => t.data.length).andThen fun m =>
  (copies (List.range m)).andThen fun data =>
  match Table.collect data with
  | .error e => raise e
  | .ok (ranges, rows) =>
    pure { ids := ids, ejectorState := ej, samplerState := sa, columns := cols, ranges := ranges, rows := rows }

/-- One round of the import loop, `table.py` 434-443 -/
def importOne (a : Archive V) (draws : List Nat) (id : Int) : Body (Table V) Unit :=
  match Table.reassemble a.rows id a.ranges with
  | .error e => raise e
  | .ok seq => addInternal draws id seq

/-- `_deserialize`, `table.py` 357-449 -/
def deserialize (a : Archive V) (draws : List Nat) : Body (Table V) Unit :=
  clear.andThen fun _ =>
  (write fun t => { t with ejector := t.ejector.setImport true }).andThen fun _ =>
  (write fun t => { t with sampler := t.sampler.setImport true }).andThen fun _ =>
  (write fun t => { t with ejector := Table.loadOpt t.ejector a.ejectorState }).andThen fun _ =>
  (write fun t => { t with sampler := Table.loadOpt t.sampler a.samplerState }).andThen fun _ =>
  (write fun t => { t with columns := Table.loadColumns a.columns t.columns }).andThen fun _ =>
  (forEach a.ids (importOne a draws)).andThen fun _ =>
  (write fun t => { t with sampler := t.sampler.setImport false }).andThen fun _ =>
  write fun t => { t with ejector := t.ejector.setImport false }

/-- A call, with the random numbers used in it. -/
inductive Call (V : Type u) where
  | add (id : Int) (seq : Seqn V) (draws : List Nat)
  | sample (count n : Nat) (c r : Nat → Nat) (junk : String → Nat → Cell V)
  | size
  | full
  | resize (n : Int)
  | clear
  | store
  | restore (a : Archive V) (draws : List Nat)

/-- What a call gives to its caller. -/
inductive Answer (V : Type u) where
  | done (r : Except Err Unit)
  | batch (r : Except Err (Batch V))
  | number (n : Int)
  | flag (b : Bool)
  | archive (r : Except Err (Archive V))

/-- The adaptors run after the lock is released, `table.py` 209-211: they work on the tensors of this batch, which are
copies (192). -/
def finish (as : List (Adaptor V)) (n : Nat) (r : Except Err (Dict String (List (Cell V)))) : Except Err (Batch V) :=
  match r with
  | .error e => .error e
  | .ok out => adapt n as (out.map fun p => (p.1, .col p.2))

/-- The methods: `add_sequence` 232-237, `sample` 196-211, `size` 213-216, `full` 221-230, `resize` 111-118, `clear`
120-123, `_serialize` 280-347, `_deserialize` 351-449. -/
def code (as : List (Adaptor V)) : Call V → Code (Table V) (Answer V)
  | .add id seq draws => locked (addInternal draws id seq) .done
  | .sample count n c r junk => locked (sample count n c r junk) fun x => .batch (finish as n x)
  | .size => locked (.act id fun t => .ret t.total) .number
  | .full => locked (.act id fun t => .ret t.filled) .flag
  | .resize n => locked (resize n) .done
  | .clear => locked clear .done
  | .store => locked serialize .archive
  | .restore a draws => locked (deserialize a draws) .done

end TableCode

end Shared

end Verif
