import Verif.Model.Format
import Verif.Model.Weight

/-!
# Model of `segeval/similarity/{__init__,boundary,segmentation}.py`
(the confusion matrix of `segeval/similarity/__init__.py:83-123` is in `Model/ML.lean`)
-/

namespace SegEval

/-- segeval/similarity/__init__.py:31-48 conversion of one segmentation to a boundary string.  A
value whose
Python type does not fit the declared format is outside the model. -/
def toBString (fmt : BoundaryFormat) (seg : Seg) : Py BString :=
  match fmt, seg with
  | .nltk, .str s => boundaryStringFromMasses (convertNltkToMasses s)
  | .sets, .sets l => .ok l
  | .mass, .ints _ l => boundaryStringFromMasses (l.map Obj.val)
  | .position, .ints _ l => boundaryStringFromMasses (convertPositionsToMasses l)
  | .other, _ => .error .segmentationMetricError
  | _, _ => .error .unmodelled

/-- segeval/similarity/__init__.py:31-48 conversion of both segmentations, first `segs_a`. -/
def toBStrings (fmt : BoundaryFormat) (a b : Seg) : Py (BString × BString) :=
  match toBString fmt a with
  | .error e => .error e
  | .ok sa =>
    match toBString fmt b with
    | .error e => .error e
    | .ok sb => .ok (sa, sb)

/-- `max(s)`: `ValueError` on an empty set (segeval/similarity/__init__.py:65). -/
def pyMax (s : Finset ℤ) : Py ℤ :=
  match sortedZ s with
  | [] => .error .valueError
  | x :: xs => .ok (xs.foldl max x)

/-- `min(s)`: `ValueError` on an empty set (segeval/similarity/__init__.py:66). -/
def pyMin (s : Finset ℤ) : Py ℤ :=
  match sortedZ s with
  | [] => .error .valueError
  | x :: xs => .ok (xs.foldl min x)

/-- The dict returned by `__boundary_statistics__` (segeval/similarity/__init__.py:77-80). -/
structure Statistics where
  countEdits : PyNum
  edits : Edits
  fullMisses : List ℤ
  boundariesAll : ℤ
  matches' : List ℤ
  pbs : ℤ
  boundaryTypes : Finset ℤ

/-- segeval/similarity/__init__.py:62-68 the weighted number of edits. -/
def countEdits (w : Weights) (nT : ℤ) (types : Finset ℤ) (e : Edits) : Py PyNum :=
  match w.a e.additions with
  | .error err => .error err
  | .ok ca =>
    match pyMax types with
    | .error err => .error err
    | .ok mx =>
      match pyMin types with
      | .error err => .error err
      | .ok mn =>
        match w.s e.substitutions mx mn with
        | .error err => .error err
        | .ok cs =>
          match w.t e.transpositions nT with
          | .error err => .error err
          | .ok ct =>
            match ca.add cs with
            | .error err => .error err
            | .ok cas => cas.add ct

/-- segeval/similarity/__init__.py:74 `matches` for the pairs from position `i` on. -/
def matchesFrom (rt : Runtime) (i : ℕ) : List (Finset ℤ × Finset ℤ) → List ℤ
  | [] => []
  | p :: ps => rt.order [4, i] (p.1 ∩ p.2) ++ matchesFrom rt (i + 1) ps

/-- segeval/similarity/__init__.py:75 `full_misses` for the pairs from position `i` on. -/
def missesFrom (rt : Runtime) (i : ℕ) : List (Finset ℤ × Finset ℤ) → List ℤ
  | [] => []
  | p :: ps => rt.order [5, i] (symmDiff p.1 p.2) ++ missesFrom rt (i + 1) ps

/-- segeval/similarity/__init__.py:76 `boundaries_all`. -/
def boundariesAll (ps : List (Finset ℤ × Finset ℤ)) : ℤ :=
  ps.foldl (fun acc p => acc + ((p.1.card : ℤ) + (p.2.card : ℤ))) 0

/-- segeval/similarity/__init__.py:49-80 `__boundary_statistics__` after conversion. -/
def statisticsOfStrings (rt : Runtime) (w : Weights) (nT : ℤ) (a b : BString) : Py Statistics :=
  if a.length ≠ b.length then .error .segmentationMetricError
  else
    let types := identifyTypes a b
    match boundaryEditDistance rt a b nT with
    | .error e => .error e
    | .ok edits =>
      match countEdits w nT types edits with
      | .error e => .error e
      | .ok ce =>
        .ok { countEdits := ce
              edits := edits
              fullMisses := missesFrom rt 0 (a.zip b)
              boundariesAll := boundariesAll (a.zip b)
              matches' := matchesFrom rt 0 (a.zip b)
              pbs := (b.length : ℤ) * (types.card : ℤ)
              boundaryTypes := types }

/-- segeval/similarity/__init__.py:25-80 `__boundary_statistics__`; the `boundary_types` argument is
overwritten at line 55 and so omitted. -/
def boundaryStatistics (rt : Runtime) (fmt : BoundaryFormat) (nT : ℤ) (w : Weights) (a b : Seg) :
    Py Statistics :=
  match toBStrings fmt a b with
  | .error e => .error e
  | .ok (sa, sb) => statisticsOfStrings rt w nT sa sb

/-- What a metric call returns: a number, a pair of parts, or the five parts of
`boundary_similarity` (segeval/similarity/boundary.py:29-36,
segeval/similarity/segmentation.py:30-37). -/
inductive MetricOut
  | num (x : PyNum)
  | parts (numerator denominator : PyNum)
  | bparts (numerator denominator : PyNum) (edits : Edits)
  deriving DecidableEq

/-- The keyword arguments of the similarity metrics (segeval/metric.py:10-15,
segeval/similarity/__init__.py:17-22). -/
structure SimKw where
  boundaryFormat : BoundaryFormat := .mass
  oneMinus : Bool := false
  returnParts : Bool := false
  nT : ℤ := 2
  weight : Weights := .default

/-- `Decimal('1') - value` when `one_minus` is set, else `value`
(segeval/similarity/boundary.py:33-36, segeval/similarity/segmentation.py:34-37). -/
def applyOneMinus (oneMinus : Bool) (value : PyNum) : Py MetricOut :=
  if oneMinus then
    match (PyNum.dec 1).sub value with
    | .ok x => .ok (.num x)
    | .error e => .error e
  else .ok (.num value)

/-- `numerator / denominator if denominator > 0 else 1` (segeval/similarity/boundary.py:32,
segeval/similarity/segmentation.py:33). -/
def ratioOrOne (numerator : PyNum) (denominator : ℤ) : Py PyNum :=
  if 0 < denominator then numerator.truediv (.int denominator) else .ok (.int 1)

/-- segeval/similarity/boundary.py:12-36 `__boundary_similarity__`. -/
def boundarySimilarity (rt : Runtime) (kw : SimKw) (a b : Seg) : Py MetricOut :=
  match boundaryStatistics rt kw.boundaryFormat kw.nT kw.weight a b with
  | .error e => .error e
  | .ok st =>
    let countUnweighted : ℤ := (st.edits.additions.length : ℤ) +
      (st.edits.substitutions.length : ℤ) + (st.edits.transpositions.length : ℤ)
    let denominator : ℤ := countUnweighted + (st.matches'.length : ℤ)
    match (PyNum.int denominator).sub st.countEdits with
    | .error e => .error e
    | .ok numerator =>
      if kw.returnParts then .ok (.bparts numerator (.int denominator) st.edits)
      else
        match ratioOrOne numerator denominator with
        | .error e => .error e
        | .ok value => applyOneMinus kw.oneMinus value

/-- segeval/similarity/segmentation.py:12-37 `__segmentation_similarity__`. -/
def segmentationSimilarity (rt : Runtime) (kw : SimKw) (a b : Seg) : Py MetricOut :=
  match boundaryStatistics rt kw.boundaryFormat kw.nT kw.weight a b with
  | .error e => .error e
  | .ok st =>
    let pbs : ℤ := st.pbs * (st.boundaryTypes.card : ℤ)
    match (PyNum.int pbs).sub st.countEdits with
    | .error e => .error e
    | .ok numerator =>
      if kw.returnParts then .ok (.parts numerator (.int pbs))
      else
        match ratioOrOne numerator pbs with
        | .error e => .error e
        | .ok value => applyOneMinus kw.oneMinus value

end SegEval
