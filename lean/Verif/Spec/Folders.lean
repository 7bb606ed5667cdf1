import Verif.Spec.Text
import Verif.Spec.Data

/-!
# Which files of a folder tree are loaded
-/

namespace SegEval.Spec

open SegEval

variable {V : Type _}

/-- The names differ at most in their extension. -/
def SameStem (name name' : Name) : Prop :=
  ∃ stem ext ext', HasExtension name stem ext ∧ HasExtension name' stem ext'

/-- A file of the name and outcome is in the folder or below it by the path, its extension is
accepted, and no such file listed later in the same folder has the same stem. -/
inductive KeptIn (accept : Name → Bool) : List (Entry V) → List Name → Name → Py (DS V) → Prop
  | here {before after name content} : Matches accept name →
      (∀ name' content', Entry.file name' content' ∈ after → Matches accept name' → ¬ SameStem name name') →
      KeptIn accept (before ++ Entry.file name content :: after) [] name content
  | inside {entries folder sub path name content} : Entry.dir folder sub ∈ entries →
      KeptIn accept sub path name content → KeptIn accept entries (folder :: path) name content

/-- A coding is found in a loaded file: the label it gets, its coder, and where it is. -/
def KeptCoding (accept : Name → Bool) (prepend : List Name) (entries : List (Entry V))
    (label coder : Name) (v : V) (path : List Name) (name item : Name) : Prop :=
  ∃ ds, KeptIn accept entries path name (.ok ds) ∧ Has ds.items item coder v ∧
    label = joinComma (prepend ++ path ++ [item])

/-! ## Folders of text files -/

/-- The text is a table with a header line, then one line per coding: the coder and the masses. -/
def TsvTable (u : Unicode) (text : Name) (table : List (Name × List ℤ)) : Prop :=
  ∃ header rows, WrittenTable '\t' (header :: rows) text ∧
    List.Forall₂ (fun row e => ∃ cells, row = e.1 :: cells ∧ List.Forall₂ (IntText u) cells e.2) rows table

/-- The name has the extension tsv or csv, in upper or lower case. -/
def TsvName (name : Name) : Prop :=
  ∃ stem ext, HasExtension name stem ext ∧ ext.map Char.toLower ∈ ["tsv".toList, "csv".toList]

/-- As `KeptIn`, for files with their text. -/
inductive TextKept : List FsEntry → List Name → Name → Name → Prop
  | here {before after name text} : TsvName name →
      (∀ name' text', FsEntry.file name' text' ∈ after → TsvName name' → ¬ SameStem name name') →
      TextKept (before ++ FsEntry.file name text :: after) [] name text
  | inside {entries folder sub path name text} : FsEntry.dir folder sub ∈ entries →
      TextKept sub path name text → TextKept entries (folder :: path) name text

/-- A folder's contents are found in the folder or below it. -/
inductive FsFolderIn : List FsEntry → List FsEntry → Prop
  | self {entries} : FsFolderIn entries entries
  | inside {entries folder sub inner} : FsEntry.dir folder sub ∈ entries → FsFolderIn sub inner →
      FsFolderIn entries inner

/-- The name of an entry. -/
def fsName : FsEntry → Name
  | .file name _ => name
  | .dir name _ => name

/-- What every file system satisfies: the names in one folder are distinct and without slash. -/
def FsNames (entries : List FsEntry) : Prop :=
  ∀ inner, FsFolderIn entries inner → (inner.map fsName).Nodup ∧ ∀ e ∈ inner, '/' ∉ fsName e

/-- The coding is in a table of the tree, and the label it gets. -/
def TextCoding (u : Unicode) (entries : List FsEntry) (label coder : Name) (masses : List ℤ) : Prop :=
  ∃ path name text stem ext table, TextKept entries path name text ∧ HasExtension name stem ext ∧
    TsvTable u text table ∧ label = joinComma (path ++ [stem]) ∧ LastOf table coder masses

end SegEval.Spec
