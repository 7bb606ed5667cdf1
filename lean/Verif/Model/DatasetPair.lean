import Verif.Model.Keywords

/-!
# Model of a metric called on two datasets, with the identity of their formats

`segeval/util/__init__.py:73` compares the formats of two datasets with `is not`.  A format is a
string, so here it is an object: a value and a tag of where it was allocated.
-/

namespace SegEval

/-- A string object naming a format (segeval/util/lang.py:8-13, segeval/format.py:11).  The members
of `BoundaryFormat`, and equal literals in code, are one interned object each: tag 0.  A string made
at run time, say read from a file or unpickled, is another object. -/
structure FmtRef where
  fmt : BoundaryFormat
  tag : ℕ := 0
  deriving DecidableEq

/-- `x is y` for two string objects (segeval/util/__init__.py:73). -/
def FmtRef.is (x y : FmtRef) : Bool := decide (x.fmt = y.fmt) && decide (x.tag = y.tag)

/-- A `Dataset` whose format is an object (segeval/data/__init__.py:27-57). -/
structure DatasetRef where
  items : Items
  coders : Finset Name
  format : FmtRef

/-- The dataset without the identity of its format (segeval/data/__init__.py:27-57). -/
def DatasetRef.plain (d : DatasetRef) : Dataset := ⟨d.items, d.coders, d.format.fmt⟩

/-- segeval/util/__init__.py:31-83 `__fnc_metric__` with two `Dataset`s as positional arguments:
lines 64-76.  `compute_pairwise_values` is given three positional arguments, so that the keywords
`fnc_metric`, `dataset_a` and `dataset_b` are given twice (segeval/compute.py:11). -/
def metricOfDatasets {R : Type _} (o : ClassOrder Name) (run : Kwargs → Seg → Seg → Py R)
    (defaults k : Kwargs) (h r : DatasetRef) : Py (List (Name × R)) :=
  if h.items.isEmpty || r.items.isEmpty then .error .segmentationMetricError
  else
    let k1 := { defaults.update k with boundaryFormat := some h.format.fmt }
    if !(h.format.is r.format) then .error .segmentationMetricError
    else if k1.others.contains "fnc_metric".toList || k1.others.contains "dataset_a".toList ||
        k1.datasetB.isSome then .error .typeError
    else
      match k1.permuted with
      | none => .error .keyError
      | some permuted =>
        match k1.delPermuted with
        | .error e => .error e
        | .ok k2 => computePairwiseValues o (run k2) permuted h.items (some r.items)

end SegEval
