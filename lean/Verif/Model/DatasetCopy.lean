import Verif.Model.Data

/-!
# Model of copies of a dataset

`Dataset` is a subclass of `defaultdict`, whose `__reduce__` and `__copy__` it inherits.  These know
nothing of the attributes that `Dataset` adds (segeval/data/__init__.py:27-57).
-/

namespace SegEval

namespace DS

variable {V : Type _}

/-- `copy.deepcopy(dataset)`, and also `pickle.loads(pickle.dumps(dataset))`: by
`defaultdict.__reduce__` the copy is `Dataset(dict)`, an empty dataset because the type `dict` is not
taken for data (segeval/data/__init__.py:42), to which the items are assigned one by one.  By value:
the copied codings are new objects. -/
def stdDeepcopy (d : DS V) : DS V :=
  d.items.foldl (fun c it => c.setItem it.1 it.2) (init [] [] none .mass)

/-- `copy.copy(dataset)`: by `defaultdict.__copy__` the copy is `Dataset(dict, dataset)`, so that the
dataset is taken for the properties (segeval/data/__init__.py:33-47).  `encode` is the property that
the codings of an item become. -/
def stdCopy (encode : List (Name × V) → JVal) (d : DS V) : DS V :=
  init [] (d.items.map (fun it => (it.1, encode it.2))) none .mass

/-- segeval/data/__init__.py:90-99 `dataset.copy()`, statement by statement: the standard deep copy,
then each attribute.  By value; see `Heap.copy` for what is shared. -/
def copyMethod (d : DS V) : DS V :=
  let c := d.stdDeepcopy
  let c := { c with coders := d.coders }
  let c := { c with properties := d.properties }
  let c := { c with boundaryTypes := d.boundaryTypes }
  { c with boundaryFormat := d.boundaryFormat }

end DS

end SegEval
