import Verif.Model.History

/-!
# Storing and restoring a table

`emote/memory/table.py` 280-578, with `state`/`load_state` of the strategies and columns.

The archive is modelled by its contents. The encodings (zip, JSON, `np.save`, pickle) are taken as lossless,
with one exception: identities that do not fit into int64 (`np.save` of a list of tuples turns them to
float64) are a failure of `serialize` here, so nothing is claimed for them.
-/

namespace Verif

variable {V : Type u}

/-- `FifoStrategyBase.state`, `fifo_strategy.py` 51-56; the other strategies return `None`
(`strategy.py` 49-51). -/
def Strategy.state : Strategy → Option (List Int × Dict Int Nat)
  | .fifo s => some (s.ids, s.lens)
  | .uniform _ => none
  | .coverage _ => none

/-- `FifoStrategyBase.load_state`, `fifo_strategy.py` 58-61; nothing for the others (`strategy.py` 53-54).
-/
def Strategy.loadState (s : Strategy) (st : List Int × Dict Int Nat) : Strategy :=
  match s with
  | .fifo s => .fifo { s with ids := st.1, lens := Dict.ofPairs st.2 }
  | .uniform s => .uniform s
  | .coverage s => .coverage s

/-- What `_serialize` writes. The types of the strategies, the length key and the capacity are written too,
but `_deserialize` only uses them for warnings; so they are left out. -/
structure Archive (V : Type u) where
  ids : List Int
  ejectorState : Option (List Int × Dict Int Nat)
  samplerState : Option (List Int × Dict Int Nat)
  columns : List (String × ColKind)
  /-- per part key: the list of (identity, start, size) -/
  ranges : Dict String (List (Int × Nat × Nat))
  /-- per part key: all rows -/
  rows : Dict String (List V)
  deriving DecidableEq, Repr

namespace Table

/-- The inner loop over the sequences of a column, `table.py` 319-327; `start` is `len(merged_data)`. -/
def rangesFrom (start : Nat) : Dict Int (List V) → List (Int × Nat × Nat)
  | [] => []
  | (id, rows) :: d => (id, start, rows.length) :: rangesFrom (start + rows.length) d

/-- The column loop, `table.py` 312-330. `np.stack([])` is a `ValueError`. -/
def collect : Dict String (Store V) →
    Except Err (Dict String (List (Int × Nat × Nat)) × Dict String (List V))
  | [] => .ok ([], [])
  | (_, .virt _ _) :: rest => collect rest
  | (name, .plain d) :: rest =>
    let merged := (d.map Prod.snd).flatten
    if merged.isEmpty then .error .valueError
    else if ¬ (d.map Prod.fst).all fitsInt64 then .error .overflowError
    else (collect rest).map fun r => ((name, rangesFrom 0 d) :: r.1, (name, merged) :: r.2)
  | (name, .tag d) :: rest =>
    let merged := (d.map Prod.snd).flatten
    if merged.isEmpty then .error .valueError
    else if ¬ (d.map Prod.fst).all fitsInt64 then .error .overflowError
    else (collect rest).map fun r => ((name, rangesFrom 0 d) :: r.1, (name, merged) :: r.2)

/-- `_serialize`, `table.py` 280-347: what ends up in the file. -/
def serialize (t : Table V) : Except Err (Archive V) :=
  match collect t.data with
  | .error e => .error e
  | .ok (ranges, rows) =>
    .ok { ids := t.lengths.keys, ejectorState := t.ejector.state, samplerState := t.sampler.state,
          columns := t.columns, ranges := ranges, rows := rows }

/-- `load_state` of the columns, `table.py` 401-419 and `column.py` 33-69: only the target of a virtual column
is in the model. Unknown columns and other column classes are skipped with a warning. -/
def loadColumns : List (String × ColKind) → Dict String ColKind → Dict String ColKind
  | [], cols => cols
  | (name, .virt _ target) :: rest, cols =>
    match cols.get? name with
    | some (.virt k _) => loadColumns rest (cols.set name (.virt k target))
    | _ => loadColumns rest cols
  | _ :: rest, cols => loadColumns rest cols

/-- Reassembling one sequence, `table.py` 434-441: `ranges[key]` is made a dict at 428. -/
def reassemble (rows : Dict String (List V)) (id : Int) :
    Dict String (List (Int × Nat × Nat)) → Except Err (Seqn V)
  | [] => .ok []
  | (key, rs) :: rest =>
    match (Dict.ofPairs rs).get? id with
    | none => .error .keyError
    | some (start, size) =>
      match rows.get? key with
      | none => .error .keyError
      | some r => (reassemble rows id rest).map fun s => (key, (r.drop start).take size) :: s

/-- One iteration of the import loop, `table.py` 434-443; `draws` for the ejector. -/
def importOne (a : Archive V) (draws : List Nat) (id : Int) (t : Table V) : Res (Table V) Unit :=
  match reassemble a.rows id a.ranges with
  | .error e => (t, .error e)
  | .ok seq => addSequence draws id seq t

/-- `if "…_state" in config: load_state(…)`, `table.py` 378-379 and 389-390. -/
def loadOpt (s : Strategy) : Option (List Int × Dict Int Nat) → Strategy
  | none => s
  | some st => s.loadState st

/-- `_deserialize`, `table.py` 351-449. -/
def deserialize (a : Archive V) (draws : List Nat) (t : Table V) : Res (Table V) Unit :=
  t.clear.andThen fun t _ =>
  let t := { t with
    ejector := loadOpt (t.ejector.setImport true) a.ejectorState
    sampler := loadOpt (t.sampler.setImport true) a.samplerState
    columns := loadColumns a.columns t.columns }
  (Res.forEach a.ids (importOne a draws) t).andThen fun t _ =>
  ({ t with sampler := t.sampler.setImport false, ejector := t.ejector.setImport false }, .ok ())

end Table

/-! ## Legacy format -/

/-- `-abs(k) - 1`, the name of an imported sequence: `table.py` 528, `storage.py` 46 and 93,
`uniform_strategy.py` 46, `fifo_strategy.py` 49. -/
def importedId (k : Int) : Int := -(k.natAbs : Int) - 1

namespace Strategy

/-- Body of the loop of `FifoStrategyBase.post_import`, `fifo_strategy.py` 43-49. -/
def fifoPostOne (id : Int) (s : Fifo) : Res Fifo Unit :=
  match s.lens.get? id with
  | none => (s, .error .keyError)
  | some len => (s.forget id).andThen fun s _ => if 0 ≤ id then s.track (importedId id) len else (s, .ok ())

/-- Body of the loop of `UniformStrategyBase.post_import`, `uniform_strategy.py` 43-46. -/
def uniformPostOne (p : Int × Nat) (s : Uniform) : Res Uniform Unit :=
  (s.forget p.1).andThen fun s _ => if 0 ≤ p.1 then s.track (importedId p.1) p.2 else (s, .ok ())

/-- `post_import`: `fifo_strategy.py` 41-49, `uniform_strategy.py` 41-52; the coverage strategy inherits
the no-op of `strategy.py` 41-47. -/
def postImport : Strategy → Res Strategy Unit
  | .fifo s => Res.lift .fifo (Res.forEach s.ids fifoPostOne s)
  | .uniform s => Res.lift .uniform
      ((Res.forEach s.idents uniformPostOne s).andThen fun s _ => s.refresh)
  | .coverage s => (.coverage s, .ok ())

end Strategy

namespace Table

/-- `post_import` of the storages, `storage.py` 35-47 and 82-94, on the dict: first the negative identities
are deleted, then each remaining one is re-inserted under its new name and deleted. -/
def storeRename (d : Dict Int (List V)) : Dict Int (List V) :=
  let d := d.filter fun p => 0 ≤ p.1
  d.foldl (fun acc p => (Dict.set acc (importedId p.1) p.2).erase p.1) d

/-- `post_import` of a storage. (A tag storage stores proxies of its values from then on, which read the
same; see DESIGN.md.) -/
def Store.postImport : Store V → Store V
  | .plain d => .plain (storeRename d)
  | .tag d => .tag (storeRename d)
  | .virt k tgt => .virt k tgt

/-- What `_store_legacy`, `table.py` 451-488, writes: the pickled parts, and the dict of each
non-virtual column. Pickling copies. -/
structure LegacyArchive (V : Type u) where
  ejector : Strategy
  sampler : Strategy
  lengthKey : String
  maxlen : Int
  columns : Dict String ColKind
  lengths : Dict Int Nat
  filled : Bool
  stores : Dict String (Dict Int (List V))
  deriving DecidableEq, Repr

/-- `_store_legacy`, `table.py` 451-488. -/
def storeLegacy (t : Table V) : LegacyArchive V :=
  { ejector := t.ejector, sampler := t.sampler, lengthKey := t.lengthKey, maxlen := t.maxlen,
    columns := t.columns, lengths := t.lengths, filled := t.filled,
    stores := t.data.filterMap fun p => match p.2 with
      | .plain d => some (p.1, d)
      | .tag d => some (p.1, d)
      | .virt _ _ => none }

/-- The column loop of `_restore_legacy`, `table.py` 513-520: what is there stays there, the loaded
sequences are written over it. -/
def loadStores (stores : Dict String (Dict Int (List V))) :
    Dict String (Store V) → Except Err (Dict String (Store V))
  | [] => .ok []
  | (name, .virt k tgt) :: rest => (loadStores stores rest).map ((name, .virt k tgt) :: ·)
  | (name, .plain d) :: rest =>
    match stores.get? name with
    | none => .error .keyError
    | some loaded => (loadStores stores rest).map ((name, .plain (d.update loaded)) :: ·)
  | (name, .tag d) :: rest =>
    match stores.get? name with
    | none => .error .keyError
    | some loaded => (loadStores stores rest).map ((name, .tag (d.update loaded)) :: ·)

/-- Recreation of the virtual storages, `table.py` 522-526. -/
def rebuildVirtual : Dict String ColKind → Dict String (Store V) → Except Err (Dict String (Store V))
  | [], data => .ok data
  | (name, .virt k target) :: cs, data =>
    if data.contains target then rebuildVirtual cs (data.set name (.virt k target)) else .error .keyError
  | _ :: cs, data => rebuildVirtual cs data

/-- `table.py` 528. -/
def renameLengths (l : Dict Int Nat) : Dict Int Nat :=
  Dict.ofPairs ((l.filter fun p => 0 ≤ p.1).map fun p => (importedId p.1, p.2))

/-- `_restore_legacy`, `table.py` 490-533. If a column is missing in the archive the stores are only partly
loaded, which is not modelled (the stores are left alone in that case). -/
def restoreLegacy (a : LegacyArchive V) (t : Table V) : Res (Table V) Unit :=
  let t := { t with ejector := a.ejector, sampler := a.sampler, lengthKey := a.lengthKey, maxlen := a.maxlen,
                    columns := a.columns, lengths := a.lengths, filled := a.filled }
  match loadStores a.stores t.data with
  | .error e => (t, .error e)
  | .ok data =>
    let t := { t with data := data }
    match rebuildVirtual t.columns t.data with
    | .error e => (t, .error e)
    | .ok data =>
      let lengths := renameLengths t.lengths
      let t := { t with data := data, lengths := lengths, total := (lengths.values.sum : Nat) }
      (Res.lift (fun s => { t with sampler := s }) t.sampler.postImport).andThen fun t _ =>
      (Res.lift (fun s => { t with ejector := s }) t.ejector.postImport).andThen fun t _ =>
      ({ t with data := t.data.map fun p => (p.1, Store.postImport p.2) }, .ok ())

end Table

end Verif
