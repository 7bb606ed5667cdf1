import Verif.Model.Keys
import Verif.Model.JsonText

/-!
# Saving and loading by path (segeval/data/jsonutils.py)

Simplified: a path is the list of its components (no links, no `..`), a disk maps paths to what is there,
and whoever calls may read and write everything. All errors of opening a file are one.
-/

namespace SegEval

/-- What a path leads to (segeval/data/jsonutils.py:27). -/
inductive DiskNode
  | folder
  | file (text : Name)
  deriving DecidableEq

/-- The files and folders there are (segeval/data/jsonutils.py:27-30). -/
abbrev Disk := List Name → Option DiskNode

/-- An exception: `OSError` of opening a file (segeval/data/jsonutils.py:30, 61), or one raised later. -/
inductive DiskErr
  | osError
  | raised (e : PyErr)
  deriving DecidableEq

/-- segeval/data/jsonutils.py:26-28: the file that is written. -/
def savePath (disk : Disk) (filepath : List Name) : List Name :=
  if disk filepath = some .folder then filepath ++ ["output.json".toList] else filepath

/-- Whether `codecs.open(filepath, 'w+', 'utf-8')` succeeds (segeval/data/jsonutils.py:30): the path is no
folder and lies in one. -/
def canOpen (disk : Disk) (filepath : List Name) : Bool :=
  decide (disk filepath ≠ some .folder) && decide (disk filepath.dropLast = some .folder)

/-- segeval/data/jsonutils.py:23-48 `output_linear_mass_json`: the disk afterwards, and the exception. -/
def saveJson (disk : Disk) (filepath : List Name) (d : DatasetK) : Disk × Option DiskErr :=
  if canOpen disk (savePath disk filepath) then
    (fun q => if q = savePath disk filepath then some (.file (outputLinearMassJson d).text) else disk q,
      (outputLinearMassJson d).failed.map .raised)
  else (disk, some .osError)

/-- segeval/data/jsonutils.py:51-92 `input_linear_mass_json`. -/
def loadJson (F : Floats) (disk : Disk) (filepath : List Name) : Except DiskErr (DS (List JVal)) :=
  match disk filepath with
  | some (.file text) =>
    match inputJsonText F text with
    | .error e => .error (.raised e)
    | .ok d => .ok d
  | _ => .error .osError

end SegEval
