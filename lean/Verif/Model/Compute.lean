import Verif.Model.Window
import Verif.Model.ML
import Mathlib.Analysis.Real.Sqrt

/-!
# Model of `segeval/compute.py`, `segeval/util/__init__.py` and `segeval/util/math.py`
-/

namespace SegEval

/-- Item labels and coder names: strings, as lists of characters (segeval/data/__init__.py:27-57).
-/
abbrev Name := List Char

/-- `{coder: segmentation}`, in insertion order (segeval/data/__init__.py:27-57). -/
abbrev Codings := List (Name × Seg)

/-- `{item: {coder: segmentation}}`, in insertion order (segeval/data/__init__.py:27-57). -/
abbrev Items := List (Name × Codings)

/-- segeval/data/__init__.py:27-57 the fields of a `Dataset` that the metrics read (by value; see
`Model/Data.lean` for construction, mutation and aliasing). -/
structure Dataset where
  items : Items
  coders : Finset Name
  boundaryFormat : BoundaryFormat

/-- `','.join(parts)` (segeval/compute.py:73). -/
def joinComma : List Name → Name
  | [] => []
  | [x] => x
  | x :: xs => x ++ ',' :: joinComma xs

/-- segeval/compute.py:71-73: the result key (the prefix is always empty, segeval/compute.py:98). -/
def entryKey (label m n : Name) : Name := joinComma [label, m, n]

/-- `itertools.combinations(l, 2)` (segeval/compute.py:65, segeval/agreement/__init__.py:150-151).
-/
def combinations2 {α : Type _} : List α → List (α × α)
  | [] => []
  | x :: xs => xs.map (fun y => (x, y)) ++ combinations2 xs

/-- segeval/compute.py:68-90 one iteration of the loop over coder pairs of one label. -/
def pairStep {R : Type _} (f : Seg → Seg → Py R) (label : Name) (permuted twoDatasets : Bool)
    (cm cn : Codings) (acc : List (Name × R)) (p : Name × Name) : Py (List (Name × R)) :=
  match dictGet cm p.1, dictGet cn p.2 with
  | some sm, some sn =>
    match f sm sn with
    | .error e => .error e
    | .ok v =>
      let acc1 := dictSet acc (entryKey label p.1 p.2) v
      if permuted && !twoDatasets then
        match f sn sm with
        | .error e => .error e
        | .ok v' => .ok (dictSet acc1 (entryKey label p.2 p.1) v')
      else .ok acc1
  | _, _ => .error .keyError

/-- segeval/compute.py:68-90 the loop over coder pairs of one label. -/
def labelPairs {R : Type _} (f : Seg → Seg → Py R) (label : Name) (permuted twoDatasets : Bool)
    (cm cn : Codings) (pairs : List (Name × Name)) : Py (List (Name × R)) :=
  forLoop pairs [] (pairStep f label permuted twoDatasets cm cn)

/-- segeval/compute.py:92-93 `for entry, pair in label_pairs.items(): pairs[entry] = pair`. -/
def dictUpdate {κ α : Type _} [DecidableEq κ] (d e : List (κ × α)) : List (κ × α) :=
  e.foldl (fun acc p => dictSet acc p.1 p.2) d

/-- segeval/compute.py:46-95 the body of the loop over labels. -/
def perLabel {R : Type _} (f : Seg → Seg → Py R) (permuted : Bool) (a : Items) (b : Option Items)
    (acc : List (Name × R)) (label : Name) : Py (List (Name × R)) :=
  match b with
  | some b =>
    match dictGet a label, dictGet b label with
    | some cm, some cn =>
      match labelPairs f label permuted true cm cn
          ((dictKeys cm).flatMap (fun m => (dictKeys cn).map (fun n => (m, n)))) with
      | .error e => .error e
      | .ok lp => .ok (dictUpdate acc lp)
    | _, _ => .ok acc
  | none =>
    match dictGet a label with
    | some cm =>
      match labelPairs f label permuted false cm cm (combinations2 (dictKeys cm)) with
      | .error e => .error e
      | .ok lp => .ok (dictUpdate acc lp)
    | none => .error .keyError

/-- segeval/compute.py:43-45 the set of labels. -/
def labelSet (a : Items) (b : Option Items) : Finset Name :=
  (dictKeys a ++ (match b with | some b => dictKeys b | none => [])).foldl
    (fun s x => insert x s) ∅

/-- segeval/compute.py:11-100 `compute_pairwise_values`; `o` is the iteration order of the label
set. -/
def computePairwiseValues {R : Type _} (o : ClassOrder Name) (f : Seg → Seg → Py R)
    (permuted : Bool) (a : Items) (b : Option Items) : Py (List (Name × R)) :=
  forLoop (o.order [] (labelSet a b)) [] (perLabel f permuted a b)

/-! ## Argument handling -/

/-- A value passed for `hypothesis`, `reference` or `dataset` (segeval/util/__init__.py:31-83). -/
inductive ArgVal
  | none
  | int (n : ℤ)
  | seg (s : Seg)
  | dataset (d : Dataset)
  | dict (d : Items)

/-- Truth value of a segmentation (segeval/util/__init__.py:31-83). -/
def Seg.truthy : Seg → Bool
  | .ints _ l => !l.isEmpty
  | .sets l => !l.isEmpty
  | .str s => !s.isEmpty

/-- Python truth value (segeval/util/__init__.py:31-83). -/
def ArgVal.truthy : ArgVal → Bool
  | .none => false
  | .int n => decide (n ≠ 0)
  | .seg s => s.truthy
  | .dataset d => !d.items.isEmpty
  | .dict d => !d.isEmpty

/-- segeval/util/__init__.py:58-61 a bare int becomes a one-element tuple. -/
def ArgVal.wrapInt : ArgVal → ArgVal
  | .int n => .seg (.ints true [⟨n, 0⟩])
  | x => x

/-- The positional arguments, the three keyword arguments naming data, and whether there is a
keyword
argument that the metric does not have (segeval/util/__init__.py:31-83). -/
structure CallArgs where
  args : List ArgVal := []
  hypothesis : Option ArgVal := none
  reference : Option ArgVal := none
  dataset : Option ArgVal := none
  unknown : Bool := false

/-- What a metric call returns: a single result or a dict of pairwise results
(segeval/util/__init__.py:31-83). -/
inductive CallOut (R : Type _)
  | single (r : R)
  | pairs (d : List (Name × R))
  deriving DecidableEq

/-- A metric function with a leftover keyword argument is not callable
(segeval/util/__init__.py:31-83). -/
def rejectExtra {R : Type _} (extra : Bool) (f : BoundaryFormat → Seg → Seg → Py R)
    (fmt : BoundaryFormat) (a b : Seg) : Py R :=
  if extra then .error .typeError else f fmt a b

/-- segeval/util/__init__.py:42-56 the parsed (hypothesis, reference, dataset, keyword that the
metric will not take?). -/
def parseArgs (c : CallArgs) : Py (ArgVal × ArgVal × ArgVal × Bool) :=
  match c.args with
  | [h, r] => .ok (h, r, .none, c.hypothesis.isSome || c.reference.isSome || c.dataset.isSome || c.unknown)
  | [d] => .ok (.none, .none, d, c.hypothesis.isSome || c.reference.isSome || c.dataset.isSome || c.unknown)
  | [] =>
    match c.hypothesis, c.reference, c.dataset with
    | some h, some r, d => .ok (h, r, .none, d.isSome || c.unknown)
    | h, r, some d => .ok (.none, .none, d, h.isSome || r.isSome || c.unknown)
    | _, _, none => .error .segmentationMetricError
  | _ => .ok (.none, .none, .none, c.hypothesis.isSome || c.reference.isSome || c.dataset.isSome || c.unknown)

/-- segeval/util/__init__.py:31-83 `__fnc_metric__`.  `f fmt` is the metric with every other keyword
argument fixed; `fmt` is the keyword (or default) boundary format, which dataset calls override;
`permuted` likewise.  A dataset or dict in the place of a segmentation is outside the model. -/
def fncMetric {R : Type _} (o : ClassOrder Name) (f : BoundaryFormat → Seg → Seg → Py R)
    (fmt : BoundaryFormat) (permuted : Bool) (c : CallArgs) : Py (CallOut R) :=
  match parseArgs c with
  | .error e => .error e
  | .ok (h0, r0, d, extra) =>
    let h := h0.wrapInt
    let r := r0.wrapInt
    if d.truthy then
      match d with
      | .dataset ds =>
        match computePairwiseValues o (rejectExtra extra f ds.boundaryFormat) permuted
            ds.items none with
        | .error e => .error e
        | .ok out => .ok (.pairs out)
      | _ => .error .attributeError
    else if h.truthy && r.truthy then
      match h, r with
      | .dataset dh, .dataset dr =>
        if dh.boundaryFormat ≠ dr.boundaryFormat then .error .segmentationMetricError
        else
          match computePairwiseValues o (rejectExtra extra f dh.boundaryFormat) permuted
              dh.items (some dr.items) with
          | .error e => .error e
          | .ok out => .ok (.pairs out)
      | .seg sh, .seg sr =>
        match rejectExtra extra f fmt sh sr with
        | .error e => .error e
        | .ok x => .ok (.single x)
      | _, _ => .error .unmodelled
    else .error .segmentationMetricError

/-! ## Summaries -/

/-- segeval/util/math.py:41-42 one step of the sum of squared deviations. -/
def squareStep (mu acc v : PyNum) : Py PyNum :=
  match v.sub mu with
  | .error e => .error e
  | .ok d =>
    match d.mul d with
    | .error e => .error e
    | .ok d2 => acc.add d2

/-- segeval/util/math.py:29-43 `var`: the mean squared deviation; an empty list divides 0 by 0. -/
def pyVar (values : List PyNum) : Py PyNum :=
  match pyMean values with
  | .error e => .error e
  | .ok mu =>
    match forLoop values (.dec 0) (squareStep mu) with
    | .error e => .error e
    | .ok total => total.truediv (.int values.length)

/-- The five values returned by `summarize` (square roots are exact reals)
(segeval/compute.py:110-111). -/
structure Summary where
  mean : ℝ
  std : ℝ
  var : ℝ
  stderr : ℝ
  count : ℕ

/-- segeval/util/math.py:46-70 `std`, `stderr` and segeval/compute.py:103-111 `summarize`. -/
noncomputable def summarize (values : List PyNum) : Py Summary :=
  match pyMean values with
  | .error e => .error e
  | .ok mu =>
    match pyVar values with
    | .error e => .error e
    | .ok v =>
      .ok { mean := (mu.val : ℝ)
            std := Real.sqrt (v.val : ℝ)
            var := (v.val : ℝ)
            stderr := Real.sqrt (v.val : ℝ) / Real.sqrt (values.length : ℝ)
            count := values.length }

end SegEval
