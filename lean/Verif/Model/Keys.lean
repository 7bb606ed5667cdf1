import Verif.Model.JsonText

/-!
# Names that are ints

`segeval/compute.py:72` writes coder names with `str()`, so that coders may be ints.  Model/Compute has strings
for all names; here names are ints or strings.  Not modelled: other keys (floats, tuples, `True`, `None`).
-/

namespace SegEval

/-- A key of a dict (segeval/compute.py:72). -/
inductive PyKey
  | int (n : ℤ)
  | str (s : Name)
  deriving DecidableEq

/-- `str(key)` (segeval/compute.py:72). -/
def PyKey.toStr : PyKey → Name
  | .int n => intRepr n
  | .str s => s

/-- `{coder: segmentation}` (segeval/data/__init__.py:27-57). -/
abbrev CodingsK := List (PyKey × Seg)

/-- `{item: {coder: segmentation}}` (segeval/data/__init__.py:27-57). -/
abbrev ItemsK := List (PyKey × CodingsK)

/-- segeval/compute.py:71-73: the result key; `','.join` accepts strings only, and `label` is not
converted. -/
def entryKeyK (label m n : PyKey) : Py Name :=
  match label with
  | .str l => .ok (joinComma [l, m.toStr, n.toStr])
  | .int _ => .error .typeError

/-- segeval/compute.py:68-90 one iteration of the loop over coder pairs of one label. -/
def pairStepK {R : Type _} (f : Seg → Seg → Py R) (label : PyKey) (permuted twoDatasets : Bool)
    (cm cn : CodingsK) (acc : List (Name × R)) (p : PyKey × PyKey) : Py (List (Name × R)) :=
  match dictGet cm p.1, dictGet cn p.2 with
  | some sm, some sn =>
    match entryKeyK label p.1 p.2 with
    | .error e => .error e
    | .ok entry =>
      match f sm sn with
      | .error e => .error e
      | .ok v =>
        let acc1 := dictSet acc entry v
        if permuted && !twoDatasets then
          match entryKeyK label p.2 p.1 with
          | .error e => .error e
          | .ok entry' =>
            match f sn sm with
            | .error e => .error e
            | .ok v' => .ok (dictSet acc1 entry' v')
        else .ok acc1
  | _, _ => .error .keyError

/-- segeval/compute.py:68-90 the loop over coder pairs of one label. -/
def labelPairsK {R : Type _} (f : Seg → Seg → Py R) (label : PyKey) (permuted twoDatasets : Bool)
    (cm cn : CodingsK) (pairs : List (PyKey × PyKey)) : Py (List (Name × R)) :=
  forLoop pairs [] (pairStepK f label permuted twoDatasets cm cn)

/-- segeval/compute.py:46-95 the body of the loop over labels. -/
def perLabelK {R : Type _} (f : Seg → Seg → Py R) (permuted : Bool) (a : ItemsK) (b : Option ItemsK)
    (acc : List (Name × R)) (label : PyKey) : Py (List (Name × R)) :=
  match b with
  | some b =>
    match dictGet a label, dictGet b label with
    | some cm, some cn =>
      match labelPairsK f label permuted true cm cn
          ((dictKeys cm).flatMap (fun m => (dictKeys cn).map (fun n => (m, n)))) with
      | .error e => .error e
      | .ok lp => .ok (dictUpdate acc lp)
    | _, _ => .ok acc
  | none =>
    match dictGet a label with
    | some cm =>
      match labelPairsK f label permuted false cm cm (combinations2 (dictKeys cm)) with
      | .error e => .error e
      | .ok lp => .ok (dictUpdate acc lp)
    | none => .error .keyError

/-- segeval/compute.py:43-45 the set of labels. -/
def labelSetK (a : ItemsK) (b : Option ItemsK) : Finset PyKey :=
  (dictKeys a ++ (match b with | some b => dictKeys b | none => [])).foldl
    (fun s x => insert x s) ∅

/-- segeval/compute.py:11-100 `compute_pairwise_values`; `o` is the iteration order of the label
set. -/
def computePairwiseValuesK {R : Type _} (o : ClassOrder PyKey) (f : Seg → Seg → Py R)
    (permuted : Bool) (a : ItemsK) (b : Option ItemsK) : Py (List (Name × R)) :=
  forLoop (o.order [] (labelSetK a b)) [] (perLabelK f permuted a b)

/-! ## json.dump -/

/-- A value given to `json.dump`.  `other` stands for values it cannot write, such as sets
(segeval/data/jsonutils.py:33). -/
inductive PVal
  | null
  | bool (b : Bool)
  | num (n : ℤ)
  | float (repr : Name)
  | str (s : Name)
  | arr (l : List PVal)
  | obj (l : List (PyKey × PVal))
  | other

/-- `a < b`: ints and strings are not ordered (called at segeval/data/jsonutils.py:33). -/
def PyKey.lt : PyKey → PyKey → Py Bool
  | .int a, .int b => .ok (decide (a < b))
  | .str a, .str b => .ok (decide (a < b))
  | _, _ => .error .typeError

/-- Insert an entry before the first one whose key is not smaller (called at
segeval/data/jsonutils.py:33). -/
def insertKey {α : Type _} (e : PyKey × α) : List (PyKey × α) → Py (List (PyKey × α))
  | [] => .ok [e]
  | x :: rest =>
    match x.1.lt e.1 with
    | .error err => .error err
    | .ok true =>
      match insertKey e rest with
      | .error err => .error err
      | .ok l => .ok (x :: l)
    | .ok false => .ok (e :: x :: rest)

/-- `sorted(dct.items())` in `_iterencode_dict` (called at segeval/data/jsonutils.py:33). -/
def sortPyKeys {α : Type _} : List (PyKey × α) → Py (List (PyKey × α))
  | [] => .ok []
  | e :: rest =>
    match sortPyKeys rest with
    | .error err => .error err
    | .ok l => insertKey e l

/-- What has been written, and the exception that ended it if there was one (called at
segeval/data/jsonutils.py:33). -/
structure Written where
  text : Name
  failed : Option PyErr

/-- Write after what was written, unless that failed (called at segeval/data/jsonutils.py:33). -/
def Written.andThen (a b : Written) : Written :=
  match a.failed with
  | some _ => a
  | none => ⟨a.text ++ b.text, b.failed⟩

/-- Written without failure (called at segeval/data/jsonutils.py:33). -/
def Written.ok (t : Name) : Written := ⟨t, none⟩

/-- The elements after the first, each after a comma (called at segeval/data/jsonutils.py:33). -/
def writeRest (level : ℕ) : List Written → Written
  | [] => .ok []
  | w :: l => (Written.ok (',' :: newline level)).andThen (w.andThen (writeRest level l))

/-- One entry: `json.dump` writes int keys as strings of digits (called at
segeval/data/jsonutils.py:33). -/
def writeEntry (e : PyKey × Written) : Written :=
  (Written.ok (dumpString e.1.toStr ++ [':', ' '])).andThen e.2

/-- The sorted entries and the closing bracket (called at segeval/data/jsonutils.py:33). -/
def writeBody (level : ℕ) : Py (List (PyKey × Written)) → Written
  | .error err => ⟨[], some err⟩
  | .ok [] => .ok []
  | .ok (x :: xs) =>
    (writeEntry x).andThen ((writeRest (level + 1) (xs.map writeEntry)).andThen
      (.ok (newline level ++ ['}'])))

mutual
/-- `_iterencode`: a value at a level of indentation.  `json.dump` writes as it goes along, so that
what
was written before a failure is in the file (called at segeval/data/jsonutils.py:33). -/
def writeJson (level : ℕ) : PVal → Written
  | .null => .ok ['n', 'u', 'l', 'l']
  | .bool true => .ok ['t', 'r', 'u', 'e']
  | .bool false => .ok ['f', 'a', 'l', 's', 'e']
  | .num n => .ok (intRepr n)
  | .float r => .ok r
  | .str s => .ok (dumpString s)
  | .arr [] => .ok ['[', ']']
  | .arr (v :: l) =>
    (Written.ok ('[' :: newline (level + 1))).andThen ((writeJson (level + 1) v).andThen
      ((writeRest (level + 1) (writeElems (level + 1) l)).andThen (.ok (newline level ++ [']']))))
  | .obj [] => .ok ['{', '}']
  | .obj (e :: l) =>
    (Written.ok ('{' :: newline (level + 1))).andThen
      (writeBody level (sortPyKeys (writeEntries (level + 1) (e :: l))))
  | .other => ⟨[], some .typeError⟩
/-- What would be written for each element (called at segeval/data/jsonutils.py:33). -/
def writeElems (level : ℕ) : List PVal → List Written
  | [] => []
  | v :: l => writeJson level v :: writeElems level l
/-- What would be written for each entry (called at segeval/data/jsonutils.py:33). -/
def writeEntries (level : ℕ) : List (PyKey × PVal) → List (PyKey × Written)
  | [] => []
  | (k, v) :: l => (k, writeJson level v) :: writeEntries level l
end

/-- A segmentation as a value: lists and tuples are arrays, sets cannot be written
(segeval/data/jsonutils.py:46). -/
def Seg.toPVal : Seg → PVal
  | .ints _ l => .arr (l.map (fun x => .num x.val))
  | .sets l => .arr (l.map (fun _ => .other))
  | .str s => .str s

/-- segeval/data/__init__.py:27-57 what `output_linear_mass_json` reads of a dataset. -/
structure DatasetK where
  items : ItemsK
  properties : List (PyKey × PVal)

/-- The dataset as a value (segeval/data/jsonutils.py:46). -/
def itemsToPVal (items : ItemsK) : PVal :=
  .obj (items.map (fun it => (it.1, .obj (it.2.map (fun c => (c.1, c.2.toPVal))))))

/-- segeval/data/jsonutils.py:45-47: the document given to `json.dump`. -/
def outputDataK (d : DatasetK) : PVal :=
  .obj (dictUpdate (dictSet [(.str kSegType, .str kLinear)] (.str kItems) (itemsToPVal d.items))
    d.properties)

/-- segeval/data/jsonutils.py:22-48 `output_linear_mass_json`: what the file holds afterwards (it is
emptied when it
is opened and closed in any case), and the exception. -/
def outputLinearMassJson (d : DatasetK) : Written := writeJson 0 (outputDataK d)

end SegEval
