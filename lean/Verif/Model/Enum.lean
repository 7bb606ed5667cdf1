import Verif.Model.Compute
import Verif.Model.ML

/-!
# Enumerations (segeval/util/lang.py)

Simplified: the value of a member is an int or a string, and the names that every class has
(`__doc__`, `__module__`, ...) are left out.
-/

namespace SegEval

/-- The value of a member (segeval/util/lang.py:12). -/
inductive EnumVal
  | int (n : ℤ)
  | str (s : Name)
  deriving DecidableEq

/-- segeval/util/lang.py:8-13 `enum`: `dict(zip(sequential, range(len(sequential))), **named)`, the
attributes of the class that is returned. -/
def enumMembers (sequential : List Name) (named : List (Name × EnumVal)) : List (Name × EnumVal) :=
  dictUpdate (dictUpdate [] (sequential.zipIdx.map (fun p => (p.1, .int p.2)))) named

/-- `Enum.name` on the class of segeval/util/lang.py:13. -/
def enumGet (e : List (Name × EnumVal)) (name : Name) : Py EnumVal :=
  match dictGet e name with
  | none => .error .attributeError
  | some v => .ok v

/-- segeval/format.py:11 `BoundaryFormat`. -/
def boundaryFormatEnum : List (Name × EnumVal) := enumMembers []
  [("position".toList, .str "position".toList), ("mass".toList, .str "mass".toList),
   ("sets".toList, .str "sets".toList), ("nltk".toList, .str "nltk".toList)]

/-- segeval/data/jsonutils.py:13-18 `Field`. -/
def fieldEnum : List (Name × EnumVal) := enumMembers []
  [("segmentation_type".toList, .str "segmentation_type".toList), ("items".toList, .str "items".toList)]

/-- segeval/data/jsonutils.py:20 `SegmentationType`. -/
def segmentationTypeEnum : List (Name × EnumVal) := enumMembers []
  [("linear".toList, .str "linear".toList)]

/-- segeval/ml/__init__.py:15 `Average`. -/
def averageEnum : List (Name × EnumVal) := enumMembers ["micro".toList, "macro".toList] []

/-- `value == Enum.name` (segeval/similarity/__init__.py:32-42). -/
def isMember (e : List (Name × EnumVal)) (name : Name) (value : EnumVal) : Py Bool :=
  match enumGet e name with
  | .error x => .error x
  | .ok v => .ok (decide (value = v))

/-- The chain of tests that finds the first member equal to `value` (segeval/similarity/__init__.py:32-48,
segeval/ml/__init__.py:22-45). -/
def firstMember {α : Type} (e : List (Name × EnumVal)) (other : α) :
    List (Name × α) → EnumVal → Py α
  | [], _ => .ok other
  | (name, a) :: rest, value =>
    match isMember e name value with
    | .error x => .error x
    | .ok true => .ok a
    | .ok false => firstMember e other rest value

/-- The value of keyword `boundary_format` as the metrics read it: nltk, sets, mass, position
(segeval/similarity/__init__.py:32-48). -/
def formatOfValue : EnumVal → Py BoundaryFormat :=
  firstMember boundaryFormatEnum .other
    [("nltk".toList, .nltk), ("sets".toList, .sets), ("mass".toList, .mass), ("position".toList, .position)]

/-- The value of keyword `version` (segeval/ml/__init__.py:22-45); the ints 0 and 1 are shared objects, so
`is` is equality. -/
def averageOfValue : EnumVal → Py Average :=
  firstMember averageEnum .other [("micro".toList, .micro), ("macro".toList, .macro)]

end SegEval
