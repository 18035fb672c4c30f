import Verif.Model.AtomicStore

/-!
# Importing a memory

`MemoryImporterCallback`, `emote/memory/callbacks.py` 8-36, and the path that `MemoryExporterProxyWrapper` writes to,
`emote/memory/memory.py` 458-462. The disk and the encoding of archives are those of `Model/AtomicStore.lean`.
-/

namespace Verif

namespace Importer

variable {B : Type} {V : Type u}

/-- `os.path.join(a, b)` on a POSIX system -/
def join (a b : String) : String :=
  if b.toList.head? = some '/' then b
  else if a.toList = [] ∨ a.toList.getLast? = some '/' then a ++ b
  else a ++ "/" ++ b

/-- `memory.py` 458-460 -/
def exportPath (root name : String) : String := join root (name ++ "_export")

/-- `callbacks.py` 25-28 -/
def restorePath (loadDir name : String) (override : Option String) : String :=
  match override with
  | none => join loadDir (name ++ "_export")
  | some f => if f = "" then join loadDir (name ++ "_export") else join loadDir f

/-- `restore_state`, `callbacks.py` 24-34: a missing file is an `osError`. `decode` reads an archive; a file that is not
one is a `runtimeError`. `draws` is for the ejector of the table. -/
def restoreState (decode : List B → Option (Archive V)) (d : Disk B) (loadDir name : String) (override : Option String)
    (draws : List Nat) (t : Table V) : Res (Table V) Unit :=
  match d.read (restorePath loadDir name override ++ ".zip") with
  | none => (t, .error .osError)
  | some bytes => match decode bytes with
    | none => (t, .error .runtimeError)
    | some a => Table.deserialize a draws t

/-- An export: where to, the name of the temporary file, and the memory at that time -/
structure Export (V : Type u) where
  path : String
  tmp : String
  table : Table V

/-- The disk after some complete exports, one after the other -/
def exportAll (pieces : Archive V → List (List B)) (started : List (List B)) (es : List (Export V)) (s : Disk B × List B) :
    Disk B × List B :=
  es.foldl (fun s e => Eff.runAll (storeEffects pieces started e.tmp e.path e.table) s) s

end Importer

end Verif
