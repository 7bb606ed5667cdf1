import Verif.Model.Data
import Mathlib.Logic.Relation

/-!
# What datasets, and reading and writing them, should mean
-/

namespace SegEval.Spec

open SegEval

variable {V : Type _}

/-- Item `label` has a coding `v` by `coder`. -/
def Has (items : List (Name × List (Name × V))) (label coder : Name) (v : V) : Prop :=
  ∃ cs, dictGet items label = some cs ∧ dictGet cs coder = some v

/-- There is an item `label`, with or without codings. -/
def HasItem (items : List (Name × List (Name × V))) (label : Name) : Prop :=
  ∃ cs, dictGet items label = some cs

/-- What every Python dict of dicts satisfies: at most one entry per key. -/
def IsDict2 (items : List (Name × List (Name × V))) : Prop :=
  (items.map Prod.fst).Nodup ∧ ∀ e ∈ items, (e.2.map Prod.fst).Nodup

/-- Some item has the same coder in both. -/
def Clash (a b : List (Name × List (Name × V))) : Prop :=
  ∃ label coder v v', Has a label coder v ∧ Has b label coder v'

/-- The coder set is the set of coders in the items. -/
def CodersAre (items : List (Name × List (Name × V))) (coders : Finset Name) : Prop :=
  ∀ c, c ∈ coders ↔ ∃ label v, Has items label c v

/-! ## Objects in memory -/

/-- What every state of memory satisfies: references point to existing objects, and dicts have at
most one entry per key. -/
structure Valid (h : Heap) : Prop where
  refs : ∀ d, ∀ it ∈ (h.ds d).items, it.2 < h.nextDict
  keys : ∀ d, ((h.ds d).items.map Prod.fst).Nodup
  inner : ∀ r, ((h.dicts r).map Prod.fst).Nodup
  lists : ∀ r, ∀ c ∈ h.dicts r, ∀ k, c.2 = .list k → k < h.nextList

/-- No two items of the dataset are the same dict object. -/
def NoAlias (h : Heap) (d : ℕ) : Prop := ((h.ds d).items.map Prod.snd).Nodup

/-- The two datasets have no inner dict object in common. -/
def Apart (h : Heap) (d e : ℕ) : Prop :=
  ∀ x ∈ (h.ds d).items, ∀ y ∈ (h.ds e).items, x.2 ≠ y.2

/-- The dataset has a list object `k` as a coding. -/
def HoldsList (h : Heap) (d k : ℕ) : Prop :=
  ∃ it ∈ (h.ds d).items, ∃ c ∈ h.dicts it.2, c.2 = .list k

/-- All codings of the dataset are tuples. -/
def OnlyTuples (h : Heap) (d : ℕ) : Prop := ∀ k, ¬ HoldsList h d k

/-- One change a program can make through a variable holding dataset `c`. -/
inductive Update (c : ℕ) : Heap → Heap → Prop
  /-- `c[item][coder] = (…)` -/
  | tuple (h : Heap) (item coder : Name) (l : List ℤ) : Update c h (h.setCoding c item coder (.tuple l))
  /-- `c[item][coder] = […]`, a new list -/
  | list (h : Heap) (item coder : Name) (l : List ℤ) : Update c h
      ({ h with lists := Function.update h.lists h.nextList l
                nextList := h.nextList + 1 }.setCoding c item coder (.list h.nextList))
  /-- `c[item] = dict()` -/
  | newItem (h : Heap) (item : Name) : Update c h (h.freshItem c item)
  /-- deleting, renaming and reordering items; setting attributes -/
  | object (h : Heap) (o : DSObj) (hk : (o.items.map Prod.fst).Nodup)
      (hr : ∀ x ∈ o.items, ∃ y ∈ (h.ds c).items, x.2 = y.2) :
      Update c h { h with ds := Function.update h.ds c o }
  /-- `c[item][coder][:] = …`, changing a list in place -/
  | inPlace (h : Heap) (k : ℕ) (l : List ℤ) (hk : HoldsList h c k) : Update c h (h.setList k l)
  /-- `c += other`, whether it raises or not -/
  | iadd (h : Heap) (other : ℕ) (ho : OnlyTuples h other) : Update c h (h.iadd c other none).1

/-- Any number of changes. -/
abbrev Updates (c : ℕ) : Heap → Heap → Prop := Relation.ReflTransGen (Update c)

/-- The states of memory reached by constructing datasets from dict literals and by `+=`, `+` and
`copy`. -/
inductive History : Heap → Prop
  | start (lists : ℕ → List ℤ) (n : ℕ) :
      History { ds := fun _ => {}, dicts := fun _ => [], lists := lists, nextDs := 0, nextDict := 0,
                nextList := n }
  | construct {h : Heap} (items : List (Name × List (Name × SegRef))) (properties : List (Name × JVal))
      (boundaryTypes : Option (Finset ℤ)) (fmt : BoundaryFormat) (hd : IsDict2 items)
      (hl : ∀ it ∈ items, ∀ c ∈ it.2, ∀ k, c.2 = .list k → k < h.nextList) (hh : History h) :
      History (h.newLiteral items properties boundaryTypes fmt).1
  | iadd {h : Heap} (a b : ℕ) (ha : a < h.nextDs) (hh : History h) : History (h.iadd a b none).1
  | add {h : Heap} (a b : ℕ) (hb : b < h.nextDs) (hh : History h) : History (h.add a b).1
  | copy {h : Heap} (a : ℕ) (hh : History h) : History (h.copy a).1

/-! ## Documents -/

/-- What kind of JSON value is found at some place. -/
inductive Shape
  | null
  | bool (b : Bool)
  | num (n : ℤ)
  | float (repr : Name)
  | str (s : Name)
  | arr (length : ℕ)
  | obj
  deriving DecidableEq

/-- One step into a JSON value. -/
inductive Step
  | key (k : Name)
  | idx (i : ℕ)

/-- The kind of a value. -/
def shape : JVal → Shape
  | .null => .null
  | .bool b => .bool b
  | .num n => .num n
  | .float r => .float r
  | .str s => .str s
  | .arr l => .arr l.length
  | .obj _ => .obj

/-- What a program finds by indexing into a value along a path. -/
def lookAt : List Step → JVal → Option Shape
  | [], v => some (shape v)
  | .key k :: p, .obj l => match dictGet l k with | some v => lookAt p v | none => none
  | .idx i :: p, .arr l => match l[i]? with | some v => lookAt p v | none => none
  | .key _ :: _, _ => none
  | .idx _ :: _, _ => none

/-- The two values are equal in Python: the same is found along every path. -/
def SameJson (v w : JVal) : Prop := ∀ p, lookAt p v = lookAt p w

/-- The document says that it is a linear segmentation and has items. -/
def Linear (entries : List (Name × JVal)) : Prop :=
  dictGet entries kSegType = some (.str kLinear) ∧ ∃ v, dictGet entries kItems = some v

/-- The last row whose first column is `coder`. -/
def lastRow (rows : List (List Name)) (coder : Name) : Option (List Name) :=
  rows.reverse.find? (fun r => decide (r.head? = some coder))

/-! ## Folders -/

/-- A file of the name and outcome is found in the folder, or in a folder below it by the path. -/
inductive FileIn : List (Entry V) → List Name → Name → Py (DS V) → Prop
  | here {entries name content} : Entry.file name content ∈ entries → FileIn entries [] name content
  | inside {entries folder sub path name content} : Entry.dir folder sub ∈ entries →
      FileIn sub path name content → FileIn entries (folder :: path) name content

/-- A folder's contents are found in the folder or below it. -/
inductive FolderIn : List (Entry V) → List (Entry V) → Prop
  | self {entries} : FolderIn entries entries
  | inside {entries folder sub inner} : Entry.dir folder sub ∈ entries → FolderIn sub inner →
      FolderIn entries inner

/-- A file that is loaded: its extension is accepted. -/
def Matches (accept : Name → Bool) (name : Name) : Prop :=
  0 < (splitExt name).2.length ∧ accept (splitExt name).2 = true

instance (accept : Name → Bool) (name : Name) : Decidable (Matches accept name) :=
  inferInstanceAs (Decidable (_ ∧ _))

/-- The names without extension of the matching files in a folder. -/
def stems (accept : Name → Bool) : List (Entry V) → List Name
  | [] => []
  | .file name _ :: rest =>
    if Matches accept name then (splitExt name).1 :: stems accept rest else stems accept rest
  | .dir _ _ :: rest => stems accept rest

/-- No folder has two matching files that differ only in their extension. -/
def NoStemClash (accept : Name → Bool) (entries : List (Entry V)) : Prop :=
  ∀ inner, FolderIn entries inner → (stems accept inner).Nodup

/-- The same folders and files, listed in another order. -/
inductive Shuffle : List (Entry V) → List (Entry V) → Prop
  | nil : Shuffle [] []
  | file (name content) {l l'} : Shuffle l l' → Shuffle (.file name content :: l) (.file name content :: l')
  | dir (name) {s s' l l'} : Shuffle s s' → Shuffle l l' → Shuffle (.dir name s :: l) (.dir name s' :: l')
  | swap (a b l) : Shuffle (a :: b :: l) (b :: a :: l)
  | trans {l l' l''} : Shuffle l l' → Shuffle l' l'' → Shuffle l l''

/-- The name of an entry. -/
def entryName : Entry V → Name
  | .file name _ => name
  | .dir name _ => name

/-- What every file system satisfies: the names in one folder are distinct. -/
def NamesDistinct (entries : List (Entry V)) : Prop :=
  ∀ inner, FolderIn entries inner → (inner.map entryName).Nodup

/-- A coding is found in a matching file: the label it gets, its coder, and where it is. -/
def CodingIn (accept : Name → Bool) (prepend : List Name) (entries : List (Entry V))
    (label coder : Name) (v : V) (path : List Name) (name item : Name) : Prop :=
  ∃ ds, FileIn entries path name (.ok ds) ∧ Matches accept name ∧ Has ds.items item coder v ∧
    label = joinComma (prepend ++ path ++ [item])

end SegEval.Spec
