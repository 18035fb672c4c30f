import Verif.Model.Strategy
import Verif.Base.Slice

/-!
# The replay memory table

`emote/memory/table.py` (`ArrayMemoryTable`), `storage.py`, `column.py`.

The row type `V` is arbitrary: the conversion to numpy (`np.array(value, dtype).reshape(-1, *shape)`)
is taken to keep the list of rows, so dtype and shape are not modelled. The lock makes each method
atomic and is not modelled.
-/

namespace Verif

/-- How a virtual column is computed from its target column, `storage.py` 144-309. -/
inductive VKind where
  /-- `NextElementMapper`, 144-166 -/
  | next
  /-- `NextElementMapper.with_only_last`, 168-202 -/
  | nextLast
  /-- `NextNElementWrapper.with_n(n)`, 205-254 -/
  | nextN (n : Nat)
  /-- `SyntheticDones`, 257-304 -/
  | dones
  /-- `SyntheticDones.as_mask`, 284-294 and 306-308 -/
  | masks
  deriving DecidableEq, Repr

/-- `column.py` 11-69: a plain, tag or virtual column. -/
inductive ColKind where
  | plain
  | tag
  | virt (k : VKind) (target : String)
  deriving DecidableEq, Repr

/-- A column definition. -/
structure Column where
  name : String
  kind : ColKind
  deriving DecidableEq, Repr

/-- A storage object. A virtual storage holds a reference to its target's storage; storages are
created once in `_clear`, so the name stands for the reference. Only virtual columns over plain
columns are modelled (the builders use no others): reading any other one is a `typeError` here. -/
inductive Store (V : Type u) where
  /-- `BaseStorage`, `storage.py` 10-47 -/
  | plain (d : Dict Int (List V))
  /-- `TagStorage`, `storage.py` 50-104 -/
  | tag (d : Dict Int (List V))
  /-- `VirtualStorage`, `storage.py` 107-141 -/
  | virt (k : VKind) (target : String)
  deriving DecidableEq, Repr

/-- A row of sampled output: a stored row, or a synthetic done/mask value. -/
inductive Cell (V : Type u) where
  | row (v : V)
  | bit (b : Bool)
  deriving DecidableEq, Repr

/-- `ArrayMemoryTable`, `table.py` 88-145. `temp` are the reusable workspaces `_temp_storage`. -/
structure Table (V : Type u) where
  columns : Dict String ColKind
  lengthKey : String
  maxlen : Int
  sampler : Strategy
  ejector : Strategy
  data : Dict String (Store V)
  lengths : Dict Int Nat
  total : Int
  filled : Bool
  temp : Dict String (List (Cell V))
  deriving DecidableEq, Repr

/-- A sequence handed to `add_sequence`: rows per column name. -/
abbrev Seqn (V : Type u) := Dict String (List V)

namespace Table

variable {V : Type u}

/-- The column loop of `_clear`, `table.py` 134-145; a virtual column needs its target before it. -/
def buildStores : Dict String ColKind → Dict String (Store V) → Except Err (Dict String (Store V))
  | [], acc => .ok acc
  | (name, .plain) :: cs, acc => buildStores cs (acc.set name (.plain []))
  | (name, .tag) :: cs, acc => buildStores cs (acc.set name (.tag []))
  | (name, .virt k target) :: cs, acc =>
    if acc.contains target then buildStores cs (acc.set name (.virt k target))
    else .error .keyError

/-- `_clear`, `table.py` 125-145. The strategies are not touched. If a virtual column has no target
the constructor fails; the half built `_data` is not modelled in that case. -/
def clear (t : Table V) : Res (Table V) Unit :=
  let t := { t with data := [], lengths := [], total := 0, filled := false, temp := [] }
  match buildStores t.columns [] with
  | .error e => (t, .error e)
  | .ok data => ({ t with data := data }, .ok ())

/-- `__init__`, `table.py` 88-109. -/
def new (columns : List Column) (maxlen : Int) (sampler ejector : Strategy) (lengthKey : String) :
    Res (Table V) Unit :=
  clear { columns := Dict.ofPairs (columns.map fun c => (c.name, c.kind)), lengthKey, maxlen,
          sampler, ejector, data := [], lengths := [], total := 0, filled := false, temp := [] }

/-- `resize`, `table.py` 111-118. -/
def resize (t : Table V) (newSize : Int) : Res (Table V) Unit :=
  if newSize < t.maxlen then (t, .error .valueError)
  else ({ t with maxlen := newSize }, .ok ())

/-- `size`, `table.py` 213-219. -/
def size (t : Table V) : Int := t.total

/-- `full`, `table.py` 221-230. -/
def full (t : Table V) : Bool := t.filled

/-- The content of the store of column `name` (plain or tag). -/
def stored (t : Table V) (name : String) : Option (Dict Int (List V)) :=
  match t.data.get? name with
  | some (.plain d) => some d
  | some (.tag d) => some d
  | _ => none

/-! ## Adding and ejecting -/

/-- `del storage[to_eject]` for all storages, `table.py` 272-273 (`storage.py` 126-127: no-op for a
virtual storage). -/
def delAll (id : Int) : Dict String (Store V) → Dict String (Store V) × Except Err Unit
  | [] => ([], .ok ())
  | (name, .virt k tgt) :: rest =>
    let r := delAll id rest
    ((name, .virt k tgt) :: r.1, r.2)
  | (name, .plain d) :: rest =>
    match d.del? id with
    | none => ((name, .plain d) :: rest, .error .keyError)
    | some d' => let r := delAll id rest; ((name, .plain d') :: r.1, r.2)
  | (name, .tag d) :: rest =>
    match d.del? id with
    | none => ((name, .tag d) :: rest, .error .keyError)
    | some d' => let r := delAll id rest; ((name, .tag d') :: r.1, r.2)

/-- Body of the ejection loop, `table.py` 271-278. -/
def ejectOne (id : Int) (t : Table V) : Res (Table V) Unit :=
  (Res.lift (fun d => { t with data := d }) (delAll id t.data)).andThen fun t _ =>
  match t.lengths.get? id with
  | none => (t, .error .keyError)
  | some len =>
    let t := { t with total := t.total - len, lengths := t.lengths.erase id }
    (Res.lift (fun s => { t with sampler := s }) (t.sampler.forget id)).andThen fun t _ =>
    Res.lift (fun s => { t with ejector := s }) (t.ejector.forget id)

/-- `_eject_count`, `table.py` 264-278. -/
def ejectCount (draws : List Nat) (count : Int) (t : Table V) : Res (Table V) Unit :=
  let t := { t with filled := true }
  (Res.lift (fun s => { t with ejector := s }) (t.ejector.eject count draws)).andThen fun t ids =>
  Res.forEach ids ejectOne t

/-- `self._data[name][identity] = rows`, `table.py` 254-257. An unknown name is a `KeyError`
(`_columns[name]`); setting on a virtual storage does nothing (`storage.py` 123-124). -/
def writeColumn (id : Int) (nv : String × List V) (t : Table V) : Res (Table V) Unit :=
  if t.columns.contains nv.1 then
    match t.data.get? nv.1 with
    | none => (t, .error .keyError)
    | some (.plain d) => ({ t with data := t.data.set nv.1 (.plain (d.set id nv.2)) }, .ok ())
    | some (.tag d) => ({ t with data := t.data.set nv.1 (.tag (d.set id nv.2)) }, .ok ())
    | some (.virt _ _) => (t, .ok ())
  else (t, .error .keyError)

/-- `identity += 2**64` for negative identities, `table.py` 243-245. -/
def wrapId (id : Int) : Int := if id < 0 then id + 2^64 else id

/-- `_add_sequence_internal`, `table.py` 239-262. `draws` are for the ejector. -/
def addSequence (draws : List Nat) (id0 : Int) (seq : Seqn V) (t : Table V) : Res (Table V) Unit :=
  match seq.get? t.lengthKey with
  | none => (t, .error .keyError)
  | some rows =>
    let len := rows.length
    let id := wrapId id0
    let sizeAfter := t.total + len
    (if sizeAfter > t.maxlen then ejectCount draws (sizeAfter - t.maxlen) t
      else (t, .ok ())).andThen fun t _ =>
    (Res.forEach seq (writeColumn id) t).andThen fun t _ =>
    let t := { t with total := t.total + len, lengths := t.lengths.set id len }
    (Res.lift (fun s => { t with sampler := s }) (t.sampler.track id len)).andThen fun t _ =>
    Res.lift (fun s => { t with ejector := s }) (t.ejector.track id len)

/-! ## Sampling -/

/-- `sequence_length_transform`, `storage.py` 32-33, 79-80, 129-130, 197-198, 244-245. -/
def localLen (s : Store V) (n : Nat) : Nat :=
  match s with
  | .plain _ => n
  | .tag _ => 1
  | .virt .nextLast _ => 1
  | .virt _ _ => n

/-- the rows of the target of a virtual column: `self._storage[key]`. -/
def target (data : Dict String (Store V)) (name : String) (id : Int) : Except Err (List V) :=
  match data.get? name with
  | some (.plain d) => match d.get? id with
    | none => .error .keyError
    | some rows => .ok rows
  | _ => .error .typeError

/-- `store[identity][start:end]`. A tag yields its first value, which is a scalar; writing a scalar or
one row to a slice is the same broadcast, so it is a one-row list here. -/
def read (data : Dict String (Store V)) (s : Store V) (p : SamplePoint) : Except Err (List (Cell V)) :=
  let (id, start, stop) := p
  match s with
  | .plain d => match d.get? id with
    | none => .error .keyError
    | some rows => .ok ((pySlice rows start stop).map .row)
  | .tag d => match d.get? id with                                   -- storage.py 54-55, 96-100
    | none => .error .keyError
    | some [] => .error .indexError
    | some (v :: _) => .ok [.row v]
  | .virt .next tgt => do                                              -- storage.py 159-162
    let rows ← target data tgt id
    .ok ((pySlice rows (start + 1) (stop + 1)).map .row)
  | .virt .nextLast tgt => do                                          -- storage.py 179-183
    let rows ← target data tgt id
    .ok ((pySlice rows stop (stop + 1)).map .row)
  | .virt (.nextN n) tgt => do                                         -- storage.py 218-231
    let rows ← target data tgt id
    if start + n ≥ rows.length ∨ stop + n > rows.length then .error .indexError
    else .ok ((pySlice rows (start + n) (stop + n)).map .row)
  | .virt .dones tgt => do                                             -- storage.py 260-278
    let rows ← target data tgt id
    .ok ((List.range (stop - start).toNat).map fun (i : Nat) => .bit (start + (i : Int) = (rows.length : Int) - 1))
  | .virt .masks tgt => do                                             -- storage.py 292-294
    let rows ← target data tgt id
    .ok ((List.range (stop - start).toNat).map fun (i : Nat) => .bit (start + (i : Int) ≠ (rows.length : Int) - 1))

/-- Is `store[identity]` defined? Used by the diagnostic. -/
def hasId (data : Dict String (Store V)) (s : Store V) (id : Int) : Bool :=
  match s with
  | .plain d => d.contains id
  | .tag d => d.contains id
  | .virt _ tgt => match target data tgt id with
    | .ok _ => true
    | .error _ => false

/-- `_diagnostic_broadcast_error`, `table.py` 149-166: looks the identity up in all stores, which is
itself a `KeyError` if it is missing in one. -/
def diagnostic (data : Dict String (Store V)) (id : Int) : Err :=
  if data.all (fun p => hasId data p.2 id) then .valueError else .keyError

/-- Inner loop of `_execute_gather`, `table.py` 178-190, on the workspace view `out`. -/
def gatherStore (data : Dict String (Store V)) (s : Store V) (len : Nat) :
    List SamplePoint → Nat → List (Cell V) → Res (List (Cell V)) Unit
  | [], _, out => (out, .ok ())
  | p :: ps, idx, out =>
    match read data s p with
    | .error .keyError => (out, .error (diagnostic data p.1))
    | .error .valueError => (out, .error (diagnostic data p.1))
    | .error e => (out, .error e)
    | .ok src =>
      match sliceAssign out idx (idx + len) src with
      | none => (out, .error (diagnostic data p.1))
      | some out => gatherStore data s len ps (idx + len) out

/-- `get_empty_storage`, `storage.py` 19-30: the whole buffer, reused if it is large enough;
`junk` is what `np.empty` happens to contain. -/
def workspace (old : Option (List (Cell V))) (total : Nat) (junk : Nat → Cell V) : List (Cell V) :=
  match old with
  | some buf => if buf.length < total then (List.range total).map junk else buf
  | none => (List.range total).map junk

/-- `_execute_gather`, `table.py` 170-194, over the remaining stores. -/
def gather (count n : Nat) (pts : List SamplePoint) (junk : String → Nat → Cell V) :
    Dict String (Store V) → Table V → Res (Table V) (Dict String (List (Cell V)))
  | [], t => (t, .ok [])
  | (name, s) :: rest, t =>
    let len := localLen s n
    let total := count * len
    let buf := workspace (t.temp.get? name) total (junk name)
    let r := gatherStore t.data s len pts 0 (buf.take total)
    let t := { t with temp := t.temp.set name (r.1 ++ buf.drop total) }
    match r.2 with
    | .error e => (t, .error e)
    | .ok () =>
      (gather count n pts junk rest t).andThen fun t out => (t, .ok ((name, r.1) :: out))

/-- `sample` without the adaptors, `table.py` 196-208. `c`, `r` are the sampler's draws. -/
def sample (count n : Nat) (c r : Nat → Nat) (junk : String → Nat → Cell V) (t : Table V) :
    Res (Table V) (Dict String (List (Cell V))) :=
  (Res.lift (fun s => { t with sampler := s }) (t.sampler.sample count n c r)).andThen fun t pts =>
  gather count n pts junk t.data t

end Table

end Verif
