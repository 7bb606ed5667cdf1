import Verif.Model.Compute

/-!
# Model of `segeval/data/{__init__,jsonutils,tsv}.py`

Two levels.  The value level (`DS`) describes datasets that share nothing with each other.  The
heap level (`Heap`) has references to inner dicts and to list segmentations, so that aliasing
between datasets is visible.

External and not modelled: opening and decoding files, the mode `'rU'` (removed in Python 3.11),
non-string keys.  The syntax of files is in Model/Text and Model/JsonText.
-/

namespace SegEval

/-! ## JSON values -/

/-- A parsed JSON document whose strings are lists of `α`; an object is a list of entries with
distinct
keys.  A float is given by the text that `json.dump` writes for it (its `repr`, `NaN`, `Infinity` or
`-Infinity`) (segeval/data/jsonutils.py:65). -/
inductive JV (α : Type)
  | null
  | bool (b : Bool)
  | num (n : ℤ)
  | float (repr : Name)
  | str (s : List α)
  | arr (l : List (JV α))
  | obj (l : List (List α × JV α))

/-- A document whose strings have characters only (and no lone surrogates)
(segeval/data/jsonutils.py:65). -/
abbrev JVal := JV Char

/-! ## Datasets by value -/

/-- segeval/data/__init__.py:27-57 `Dataset`: items in insertion order, each with its codings in
insertion
order, and the attributes. -/
structure DS (V : Type _) where
  items : List (Name × List (Name × V)) := []
  coders : Finset Name := ∅
  properties : List (Name × JVal) := []
  boundaryTypes : Finset ℤ := {1}
  boundaryFormat : BoundaryFormat := .mass

namespace DS

variable {V : Type _}

/-- The coders occurring in the items (segeval/data/__init__.py:53-57). -/
def codersOf (items : List (Name × List (Name × V))) : Finset Name :=
  items.foldl (fun acc it => it.2.foldl (fun acc c => insert c.1 acc) acc) ∅

/-- segeval/data/__init__.py:33-57 `Dataset(item_coder_data, properties, boundary_types,
boundary_format)`. -/
def init (items : List (Name × List (Name × V))) (properties : List (Name × JVal))
    (boundaryTypes : Option (Finset ℤ)) (fmt : BoundaryFormat) : DS V :=
  { items := dictUpdate [] items
    coders := codersOf (dictUpdate [] items)
    properties := dictUpdate [] properties
    boundaryTypes := boundaryTypes.getD {1}
    boundaryFormat := fmt }

/-- `dataset[item]` as an expression: `defaultdict` creates an empty dict when absent
(segeval/data/__init__.py:27-57). -/
def getItem (d : DS V) (item : Name) : List (Name × V) × DS V :=
  match dictGet d.items item with
  | some cs => (cs, d)
  | none => ([], { d with items := dictSet d.items item [] })

/-- `dataset[item] = codings` (inherited `__setitem__`; the coder set is not touched)
(segeval/data/__init__.py:27-57). -/
def setItem (d : DS V) (item : Name) (codings : List (Name × V)) : DS V :=
  { d with items := dictSet d.items item codings }

/-- `dataset[item][coder] = v` (segeval/data/__init__.py:76). -/
def setCoding (d : DS V) (item coder : Name) (v : V) : DS V :=
  let (cs, d') := d.getItem item
  d'.setItem item (dictSet cs coder v)

/-- segeval/data/__init__.py:65-69 the item label, possibly with a prefix. -/
def prefixed (prepend : Option (List Name)) (item : Name) : Name :=
  match prepend with
  | none => item
  | some parts => joinComma (parts ++ [item])

/-- segeval/data/__init__.py:70-71 `if item not in self: self[item] = dict()`. -/
def ensureItem (d : DS V) (item : Name) : DS V :=
  match dictGet d.items item with
  | some _ => d
  | none => d.setItem item []

/-- segeval/data/__init__.py:73-79 the loop over the codings of one item.  Returns the dataset as it
is
left, and the exception if one was raised. -/
def addCodings (d : DS V) (item : Name) : List (Name × V) → DS V × Option PyErr
  | [] => (d, none)
  | (coder, v) :: rest =>
    let d1 := { d with coders := insert coder d.coders }
    match dictGet ((dictGet d1.items item).getD []) coder with
    | none => addCodings (d1.setCoding item coder v) item rest
    | some _ => (d1, some .dataIOError)

/-- segeval/data/__init__.py:59-80 `__iadd__`.  Returns the dataset as it is left, and the exception
if one
was raised. -/
def iadd (prepend : Option (List Name)) (d : DS V) :
    List (Name × List (Name × V)) → DS V × Option PyErr
  | [] => (d, none)
  | (item0, codings) :: rest =>
    let item := prefixed prepend item0
    match addCodings (d.ensureItem item) item codings with
    | (d2, some e) => (d2, some e)
    | (d2, none) => iadd prepend d2 rest

/-- segeval/data/__init__.py:82-88 `__add__`: the result, or the exception. -/
def add (a b : DS V) : Py (DS V) :=
  match iadd none a b.items with
  | (d, none) => .ok d
  | (_, some e) => .error e

end DS

/-! ## Datasets in a heap -/

/-- A segmentation stored in an inner dict: an immutable tuple, or a reference to a list object
(segeval/data/__init__.py:76). -/
inductive SegRef
  | tuple (l : List ℤ)
  | list (r : ℕ)
  deriving DecidableEq

/-- A `Dataset` object: its items refer to inner dict objects (segeval/data/__init__.py:27-57). -/
structure DSObj where
  items : List (Name × ℕ) := []
  coders : Finset Name := ∅
  properties : List (Name × JVal) := []
  boundaryTypes : Finset ℤ := {1}
  boundaryFormat : BoundaryFormat := .mass

/-- Dataset objects, inner dict objects and list objects; addresses from `next*` on are free
(segeval/data/__init__.py:27-99). -/
structure Heap where
  ds : ℕ → DSObj
  dicts : ℕ → List (Name × SegRef)
  lists : ℕ → List ℤ
  nextDs : ℕ
  nextDict : ℕ
  nextList : ℕ

namespace Heap

/-- `Dataset(source)` for a plain dict `source` of inner dicts: the inner dicts are shared
(segeval/data/__init__.py:42-43), the coders collected (53-57). -/
def newDataset (h : Heap) (source : List (Name × ℕ)) (properties : List (Name × JVal))
    (boundaryTypes : Option (Finset ℤ)) (fmt : BoundaryFormat) : Heap × ℕ :=
  let items := dictUpdate [] source
  let o : DSObj :=
    { items := items
      coders := items.foldl
        (fun acc it => (h.dicts it.2).foldl (fun acc c => insert c.1 acc) acc) ∅
      properties := dictUpdate [] properties
      boundaryTypes := boundaryTypes.getD {1}
      boundaryFormat := fmt }
  ({ h with ds := Function.update h.ds h.nextDs o, nextDs := h.nextDs + 1 }, h.nextDs)

/-- The inner dict objects of a dict literal `{label: {coder: segmentation, …}, …}`
(segeval/data/__init__.py:27-57). -/
def newDicts : List (Name × List (Name × SegRef)) → Heap → Heap × List (Name × ℕ)
  | [], h => (h, [])
  | (label, codings) :: rest, h =>
    let (h', refs) := newDicts rest
      { h with dicts := Function.update h.dicts h.nextDict codings, nextDict := h.nextDict + 1 }
    (h', (label, h.nextDict) :: refs)

/-- `Dataset({label: {coder: segmentation, …}, …}, …)` with a dict literal that nothing else refers
to (segeval/data/__init__.py:27-57). -/
def newLiteral (h : Heap) (items : List (Name × List (Name × SegRef)))
    (properties : List (Name × JVal)) (boundaryTypes : Option (Finset ℤ)) (fmt : BoundaryFormat) :
    Heap × ℕ :=
  (newDicts items h).1.newDataset (newDicts items h).2 properties boundaryTypes fmt

/-- `d[item] = dict()` (segeval/data/__init__.py:71). -/
def freshItem (h : Heap) (d : ℕ) (item : Name) : Heap :=
  { h with
    dicts := Function.update h.dicts h.nextDict []
    nextDict := h.nextDict + 1
    ds := Function.update h.ds d
      { h.ds d with items := dictSet (h.ds d).items item h.nextDict } }

/-- segeval/data/__init__.py:70-71 `if item not in self: self[item] = dict()`. -/
def ensureItem (h : Heap) (d : ℕ) (item : Name) : Heap :=
  match dictGet (h.ds d).items item with
  | some _ => h
  | none => h.freshItem d item

/-- `d.coders.add(coder)` (segeval/data/__init__.py:74). -/
def addCoder (h : Heap) (d : ℕ) (coder : Name) : Heap :=
  { h with ds := Function.update h.ds d { h.ds d with coders := insert coder (h.ds d).coders } }

/-- `d[item][coder] = v` for an item that is present; a missing item is created by `defaultdict`
(segeval/data/__init__.py:76). -/
def setCoding (h : Heap) (d : ℕ) (item coder : Name) (v : SegRef) : Heap :=
  match dictGet (h.ds d).items item with
  | some r => { h with dicts := Function.update h.dicts r (dictSet (h.dicts r) coder v) }
  | none =>
    let h' := h.freshItem d item
    { h' with dicts := Function.update h'.dicts h.nextDict (dictSet [] coder v) }

/-- segeval/data/__init__.py:73-79 the loop over the codings of one item.  The view
`codings.items()`
cannot change during the loop: if `self[item]` is the same object the first coder is a duplicate. -/
def addCodings (h : Heap) (d : ℕ) (item : Name) : List (Name × SegRef) → Heap × Option PyErr
  | [] => (h, none)
  | (coder, v) :: rest =>
    let h1 := h.addCoder d coder
    let present :=
      match dictGet (h1.ds d).items item with
      | some r => (dictGet (h1.dicts r) coder).isSome
      | none => false
    if present then (h1, some .dataIOError)
    else addCodings (h1.setCoding d item coder v) d item rest

/-- segeval/data/__init__.py:59-80 the loop over the items of the other dataset; its inner dicts are
read
when the loop reaches them. -/
def iaddItems (prepend : Option (List Name)) (d : ℕ) :
    List (Name × ℕ) → Heap → Heap × Option PyErr
  | [], h => (h, none)
  | (item0, r) :: rest, h =>
    let item := DS.prefixed prepend item0
    let h1 := h.ensureItem d item
    match h1.addCodings d item (h1.dicts r) with
    | (h2, some e) => (h2, some e)
    | (h2, none) => iaddItems prepend d rest h2

/-- segeval/data/__init__.py:59-80 `d += other`.  The item list of `other` cannot change during the
loop:
an item is created in `d` only when absent, which cannot happen when `d is other` (without a prefix;
only the folder loader gives one, with a new dataset as `other`). -/
def iadd (h : Heap) (d other : ℕ) (prepend : Option (List Name)) : Heap × Option PyErr :=
  iaddItems prepend d (h.ds other).items h

/-- Move the list reference of a deep copy (segeval/data/__init__.py:90-99). -/
def SegRef.shift (k : ℕ) : SegRef → SegRef
  | .tuple l => .tuple l
  | .list r => .list (k + r)

/-- segeval/data/__init__.py:90-99 `copy`: a deep copy.  `copy.deepcopy` keeps the sharing pattern
of the
original; here every object at address `r` is copied to the free address `next + r` (copies of
unreachable objects are garbage). -/
def copy (h : Heap) (d : ℕ) : Heap × ℕ :=
  let o := h.ds d
  let o' : DSObj := { o with items := o.items.map (fun it => (it.1, h.nextDict + it.2)) }
  ({ ds := Function.update h.ds h.nextDs o'
     dicts := fun r =>
       if h.nextDict ≤ r then
         (h.dicts (r - h.nextDict)).map (fun c => (c.1, SegRef.shift h.nextList c.2))
       else h.dicts r
     lists := fun r => if h.nextList ≤ r then h.lists (r - h.nextList) else h.lists r
     nextDs := h.nextDs + 1
     nextDict := h.nextDict + h.nextDict
     nextList := h.nextList + h.nextList }, h.nextDs)

/-- segeval/data/__init__.py:82-88 `d + other`: the new dataset's address, or the exception. -/
def add (h : Heap) (d other : ℕ) : Heap × Py ℕ :=
  let (h1, c) := h.copy d
  match h1.iadd c other none with
  | (h2, none) => (h2, .ok c)
  | (h2, some e) => (h2, .error e)

/-- In-place change of a list segmentation, `d[item][coder][:] = l`
(segeval/data/__init__.py:90-99). -/
def setList (h : Heap) (r : ℕ) (l : List ℤ) : Heap :=
  { h with lists := Function.update h.lists r l }

/-- The segmentation a reference denotes (segeval/data/__init__.py:76). -/
def segOf (h : Heap) : SegRef → List ℤ
  | .tuple l => l
  | .list r => h.lists r

/-- What a user sees of a dataset: items, codings and attributes, by value
(segeval/data/__init__.py:27-57). -/
def view (h : Heap) (d : ℕ) : DS (List ℤ) :=
  { items := (h.ds d).items.map (fun it => (it.1, (h.dicts it.2).map (fun c => (c.1, h.segOf c.2))))
    coders := (h.ds d).coders
    properties := (h.ds d).properties
    boundaryTypes := (h.ds d).boundaryTypes
    boundaryFormat := (h.ds d).boundaryFormat }

end Heap

/-! ## JSON -/

/-- The key `'segmentation_type'` (segeval/data/jsonutils.py:15). -/
def kSegType : Name :=
  ['s', 'e', 'g', 'm', 'e', 'n', 't', 'a', 't', 'i', 'o', 'n', '_', 't', 'y', 'p', 'e']
/-- The key `'items'` (segeval/data/jsonutils.py:17). -/
def kItems : Name := ['i', 't', 'e', 'm', 's']
/-- The value `'linear'` (segeval/data/jsonutils.py:20). -/
def kLinear : Name := ['l', 'i', 'n', 'e', 'a', 'r']

/-- The dataset as a JSON object of objects of arrays (segeval/data/jsonutils.py:46). -/
def itemsToJson (items : List (Name × List (Name × List ℤ))) : JVal :=
  .obj (items.map (fun it => (it.1, .obj (it.2.map (fun c => (c.1, .arr (c.2.map .num)))))))

/-- Insert an entry before the first one whose key is not smaller (segeval/data/jsonutils.py:33). -/
def insertEntry (e : Name × JVal) : List (Name × JVal) → List (Name × JVal)
  | [] => [e]
  | x :: rest => if x.1 < e.1 then x :: insertEntry e rest else e :: x :: rest

mutual
/-- segeval/data/jsonutils.py:33 `json.dump(data, sort_keys=True)`: the value that is written, with
the keys of
all objects in code point order.  How it is
written is modelled in Model/JsonText. -/
def sortKeys : JVal → JVal
  | .arr l => .arr (sortAll l)
  | .obj l => .obj (sortEntries l)
  | .null => .null
  | .bool b => .bool b
  | .num n => .num n
  | .float r => .float r
  | .str s => .str s
/-- The elements of an array (segeval/data/jsonutils.py:33). -/
def sortAll : List JVal → List JVal
  | [] => []
  | v :: rest => sortKeys v :: sortAll rest
/-- The entries of an object (segeval/data/jsonutils.py:33). -/
def sortEntries : List (Name × JVal) → List (Name × JVal)
  | [] => []
  | (k, v) :: rest => insertEntry (k, sortKeys v) (sortEntries rest)
end

/-- segeval/data/jsonutils.py:38-48 `output_linear_mass_json`: the document given to `json.dump`. -/
def outputData (d : DS (List ℤ)) : JVal :=
  .obj (dictUpdate (dictSet [(kSegType, .str kLinear)] kItems (itemsToJson d.items)) d.properties)

/-- segeval/data/jsonutils.py:38-48 `output_linear_mass_json`: the document in the file. -/
def outputJson (d : DS (List ℤ)) : JVal := sortKeys (outputData d)

/-- Is `pat` a contiguous part of `s`?  (`pat in s` for strings.) (segeval/data/jsonutils.py:70). -/
def isInfix {α : Type} [DecidableEq α] (pat : List α) : List α → Bool
  | [] => pat.isEmpty
  | s@(_ :: rest) => pat.isPrefixOf s || isInfix pat rest

/-- `key in data` for a parsed document (segeval/data/jsonutils.py:70, 80). -/
def jsonContains {α : Type} [DecidableEq α] (key : List α) : JV α → Py Bool
  | .obj l => .ok (dictGet l key).isSome
  | .arr l => .ok (l.any (fun x => match x with | .str s => decide (s = key) | _ => false))
  | .str s => .ok (isInfix key s)
  | .null => .error .typeError
  | .bool _ => .error .typeError
  | .num _ => .error .typeError
  | .float _ => .error .typeError

/-- `data[key]` for a document that contains the key (segeval/data/jsonutils.py:71, 81). -/
def jsonIndex {α : Type} [DecidableEq α] (key : List α) : JV α → Py (JV α)
  | .obj l => match dictGet l key with | some v => .ok v | none => .error .keyError
  | _ => .error .typeError

/-- `tuple(masses)` for a JSON value (segeval/data/jsonutils.py:86). -/
def jsonTuple {α : Type} : JV α → Py (List (JV α))
  | .arr l => .ok l
  | .str s => .ok (s.map (fun c => .str [c]))
  | .obj l => .ok (l.map (fun e => .str e.1))
  | _ => .error .typeError

/-- segeval/data/jsonutils.py:85-86 the loop over the codings of one item. -/
def readCodings {α : Type} [DecidableEq α] (l : List (List α × JV α)) (acc : List (List α × List (JV α))) :
    Py (List (List α × List (JV α))) :=
  forLoop l acc (fun acc c =>
    match jsonTuple c.2 with
    | .error e => .error e
    | .ok t => .ok (dictSet acc c.1 t))

/-- segeval/data/jsonutils.py:83-86 the loop over the items. -/
def readItems (l : List (Name × JVal)) (d : DS (List JVal)) : Py (DS (List JVal)) :=
  forLoop l d (fun d it =>
    match it.2 with
    | .obj cs =>
      match readCodings cs [] with
      | .error e => .error e
      | .ok codings => .ok (d.setItem it.1 codings)
    | _ => .error .attributeError)

/-- segeval/data/jsonutils.py:69-92 `input_linear_mass_json` after reading; `none` is a file
`json.load`
rejects (segeval/data/jsonutils.py:64-68). -/
def inputJson (doc : Option JVal) : Py (DS (List JVal)) :=
  match doc with
  | none => .error .dataIOError
  | some data =>
    match jsonContains kSegType data with
    | .error e => .error e
    | .ok false => .error .dataIOError
    | .ok true =>
      match jsonIndex kSegType data with
      | .error e => .error e
      | .ok ty =>
        match ty with
        | .str s =>
          if s = kLinear then
            match data with
            | .obj entries =>
              match dictGet entries kItems with
              | none => .error .dataIOError
              | some items =>
                match items with
                | .obj its =>
                  readItems its { properties := entries.filter (fun e => decide (e.1 ≠ kItems)) }
                | _ => .error .attributeError
            | _ => .error .typeError
          else .error .dataIOError
        | _ => .error .dataIOError

/-! ## TSV -/

/-- segeval/data/tsv.py:48-49 one further column: `dataset[item][coder].append(int(col))`. -/
def tsvCol (parse : Name → Option ℤ) (acc : List ℤ) (col : Name) : Py (List ℤ) :=
  match parse col with
  | none => .error .valueError
  | some n => .ok (acc ++ [n])

/-- segeval/data/tsv.py:42-50 one data row: the first column names the coder, the others are
appended as ints.
An empty row indexes the dict with `None`.  `parse` stands for `int(.)`. -/
def tsvRow (parse : Name → Option ℤ) (codings : List (Name × List ℤ)) (row : List Name) :
    Py (List (Name × List ℤ)) :=
  match row with
  | [] => .error .keyError
  | coder :: cols =>
    match forLoop cols [] (tsvCol parse) with
    | .error e => .error e
    | .ok masses => .ok (dictSet codings coder masses)

/-- segeval/data/tsv.py:14-52 `input_linear_mass_tsv` on the rows of the file. -/
def inputTsv (parse : Name → Option ℤ) (item : Name) (rows : List (List Name)) :
    Py (DS (List ℤ)) :=
  match forLoop (rows.drop 1) [] (tsvRow parse) with
  | .error e => .error e
  | .ok codings => .ok ((({} : DS (List ℤ)).setItem item codings))

/-- segeval/data/tsv.py:72-75 convert each coding. -/
def convertCodings (d : DS (List ℤ)) : DS (List ℤ) :=
  { d with items := d.items.map (fun it =>
      (it.1, it.2.map (fun c => (c.1, convertPositionsToMasses (c.2.map (fun x => ⟨x, 0⟩)))))) }

/-! ## File names -/

/-- `os.path.split(p)[1]`: the part after the last `/` (segeval/data/__init__.py:116). -/
def baseName (p : Name) : Name :=
  match splitOnChar '/' p with
  | [] => []
  | x :: xs => (x :: xs).getLast (by simp)

/-- Position of the last dot, if any (segeval/data/__init__.py:117). -/
def lastDot : Name → Option ℕ
  | [] => none
  | c :: cs =>
    match lastDot cs with
    | some k => some (k + 1)
    | none => if c = '.' then some 0 else none

/-- `os.path.splitext` of a name without directory part: leading dots do not start an extension
(segeval/data/__init__.py:117, 171). -/
def splitExt (name : Name) : Name × Name :=
  match lastDot name with
  | none => (name, [])
  | some k =>
    if (name.take k).all (fun c => decide (c = '.')) then (name, [])
    else (name.take k, name.drop k)

/-- segeval/data/__init__.py:112-119 `name_from_filepath`. -/
def nameFromFilepath (p : Name) : Name :=
  let name := baseName p
  let basic := (splitExt name).1
  if 0 < basic.length then basic else name

/-- segeval/data/__init__.py:16-23 `FILETYPES`: the extensions of a file type. -/
inductive FileType
  | tsv | json
  deriving DecidableEq

/-- segeval/data/__init__.py:20-23 the extensions of a file type. -/
def FileType.extensions : FileType → List Name
  | .tsv => [['.', 't', 's', 'v'], ['.', 'c', 's', 'v']]
  | .json => [['.', 'j', 's', 'o', 'n'], ['.', 'j', 's', 'n']]

/-- segeval/data/__init__.py:172 `ext.lower() in allowable_extensions`.  `Char.toLower` is
`str.lower` on
ASCII; no character beyond ASCII has one of the letters of the extensions as its lower case. -/
def FileType.accepts (t : FileType) (ext : Name) : Bool := decide (ext.map Char.toLower ∈ t.extensions)

/-! ## Nested folders -/

/-- One directory entry: a file whose loading has the given outcome, or a folder
(segeval/data/__init__.py:164-174). -/
inductive Entry (V : Type _)
  | file (name : Name) (content : Py (DS V))
  | dir (name : Name) (entries : List (Entry V))

/-- segeval/data/__init__.py:164-174 the files that match, keyed by the name without extension: a
later
file with the same stem replaces an earlier one. -/
def matchingFiles {V : Type _} (accept : Name → Bool) :
    List (Entry V) → List (Name × Py (DS V)) → List (Name × Py (DS V))
  | [], acc => acc
  | .file name content :: rest, acc =>
    if 0 < (splitExt name).2.length ∧ accept (splitExt name).2 = true then
      matchingFiles accept rest (dictSet acc (splitExt name).1 content)
    else matchingFiles accept rest acc
  | .dir _ _ :: rest, acc => matchingFiles accept rest acc

/-- segeval/data/__init__.py:178-180 load each file and add it. -/
def loadFiles {V : Type _} (prepend : List Name) :
    List (Name × Py (DS V)) → DS V → Py (DS V)
  | [], d => .ok d
  | (_, content) :: rest, d =>
    match content with
    | .error e => .error e
    | .ok other =>
      match DS.iadd (some prepend) d other.items with
      | (_, some e) => .error e
      | (d', none) => loadFiles prepend rest d'

mutual
/-- segeval/data/__init__.py:182-189 the recursion into one folder: its files (178-180), then its
folders. -/
def loadDir {V : Type _} (accept : Name → Bool) (prepend : List Name) : Entry V → DS V → Py (DS V)
  | .file _ _, d => .ok d
  | .dir name entries, d =>
    match loadFiles (prepend ++ [name]) (matchingFiles accept entries []) d with
    | .error e => .error e
    | .ok d' => loadDirs accept (prepend ++ [name]) entries d'
/-- segeval/data/__init__.py:182-189 the loop over the folders. -/
def loadDirs {V : Type _} (accept : Name → Bool) (prepend : List Name) :
    List (Entry V) → DS V → Py (DS V)
  | [], d => .ok d
  | e :: rest, d =>
    match loadDir accept prepend e d with
    | .error e => .error e
    | .ok d' => loadDirs accept prepend rest d'
end

/-- segeval/data/__init__.py:138-190 `load_nested_folders_dict`; `accept` says whether an extension
is one
of the allowed ones (after lower-casing).  Names within one folder are distinct. -/
def loadNested {V : Type _} (accept : Name → Bool) (prepend : List Name) (entries : List (Entry V))
    (d : DS V) : Py (DS V) :=
  match loadFiles prepend (matchingFiles accept entries []) d with
  | .error e => .error e
  | .ok d' => loadDirs accept prepend entries d'

end SegEval
