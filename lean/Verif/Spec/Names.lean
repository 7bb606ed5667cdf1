import Verif.Model.Keys
import Verif.Spec.JsonText
import Verif.Spec.Compute

/-!
# Datasets whose names are ints or strings
-/

namespace SegEval.Spec

open SegEval

/-- The dataset with all names written as strings. -/
def named (a : ItemsK) : Items :=
  a.map (fun it => (it.1.toStr, it.2.map (fun c => (c.1.toStr, c.2))))

/-- What every Python dict of dicts satisfies. -/
def IsDictK (a : ItemsK) : Prop := (dictKeys a).Nodup ∧ ∀ it ∈ a, (dictKeys it.2).Nodup

/-- All items are labelled with strings. -/
def TextItems (a : ItemsK) : Prop := ∀ it ∈ a, ∃ s, it.1 = .str s

/-- No item has a coder `n` and a coder `'n'`. -/
def NoClash (a : ItemsK) : Prop :=
  ∀ it ∈ a, ∀ n : ℤ, PyKey.int n ∈ dictKeys it.2 → PyKey.str (intRepr n) ∉ dictKeys it.2

/-! ## Values -/

/-- All keys are ints, or all are strings. -/
def OneKind (keys : List PyKey) : Prop := (∀ k ∈ keys, ∃ n, k = .int n) ∨ ∀ k ∈ keys, ∃ s, k = .str s

mutual
/-- A value that Python can hold: the keys of a dict are distinct, and floats are written as
`json.dump` does. -/
inductive PyVal (F : Floats) : PVal → Prop
  | null : PyVal F .null
  | bool (b : Bool) : PyVal F (.bool b)
  | num (n : ℤ) : PyVal F (.num n)
  | float {r : Name} : FloatRepr F r → PyVal F (.float r)
  | str (s : Name) : PyVal F (.str s)
  | arr {l : List PVal} : PyVals F l → PyVal F (.arr l)
  | obj {l : List (PyKey × PVal)} : (l.map Prod.fst).Nodup → PyDict F l → PyVal F (.obj l)
  | other : PyVal F .other
/-- The elements of a list. -/
inductive PyVals (F : Floats) : List PVal → Prop
  | nil : PyVals F []
  | cons {v : PVal} {l : List PVal} : PyVal F v → PyVals F l → PyVals F (v :: l)
/-- The entries of a dict. -/
inductive PyDict (F : Floats) : List (PyKey × PVal) → Prop
  | nil : PyDict F []
  | cons {k : PyKey} {v : PVal} {l : List (PyKey × PVal)} : PyVal F v → PyDict F l →
      PyDict F ((k, v) :: l)
end

/-- Something in the value cannot be written: a set, or a dict with int and string keys. -/
inductive Unwritable : PVal → Prop
  | other : Unwritable .other
  | keys {l : List (PyKey × PVal)} : ¬ OneKind (l.map Prod.fst) → Unwritable (.obj l)
  | elem {l : List PVal} {v : PVal} : v ∈ l → Unwritable v → Unwritable (.arr l)
  | entry {l : List (PyKey × PVal)} {k : PyKey} {v : PVal} : (k, v) ∈ l → Unwritable v →
      Unwritable (.obj l)

mutual
/-- The value with all keys written as strings. -/
def asJson : PVal → JVal
  | .null => .null
  | .bool b => .bool b
  | .num n => .num n
  | .float r => .float r
  | .str s => .str s
  | .arr l => .arr (asElems l)
  | .obj l => .obj (asEntries l)
  | .other => .null
/-- The elements of a list. -/
def asElems : List PVal → List JVal
  | [] => []
  | v :: l => asJson v :: asElems l
/-- The entries of a dict. -/
def asEntries : List (PyKey × PVal) → List (Name × JVal)
  | [] => []
  | (k, v) :: l => (k.toStr, asJson v) :: asEntries l
end

/-- What `tuple` makes of a segmentation that was saved and loaded. -/
inductive ReadBack : Seg → List JVal → Prop
  | ints (t : Bool) (l : List SegEval.Obj) : ReadBack (.ints t l) (l.map (fun x => .num x.val))
  | str (s : Name) : ReadBack (.str s) (s.map (fun c => .str [c]))
  | empty : ReadBack (.sets []) []

end SegEval.Spec
