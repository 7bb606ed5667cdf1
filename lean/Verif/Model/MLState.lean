import Verif.Model.ML

/-!
# Confusion matrices across exceptions

`Model/ML` says nothing of the matrix after a query that raises.  Here every function gives the matrix
afterwards in any case, so that a program that catches the exception can go on with it; and the
queries on a dict of matrices, where the same matrix object may be the value of several labels.
-/

namespace SegEval

section State

variable {κ : Type _} [DecidableEq κ]

/-- segeval/similarity/__init__.py:102-122 `matrix[p][a] += v`: the cell is read before the sum can
raise. -/
def CM.incrS (m : CM κ) (p a : κ) (v : PyNum) : Py Unit × CM κ :=
  let (old, m') := m.read p a
  match old.add v with
  | .error e => (.error e, m')
  | .ok new => (.ok (), m'.write p a new)

/-- segeval/ml/__init__.py:67-68 and 83-84 the sum over the classes. -/
def sumCellsS (cell : κ → κ × κ) : List κ → PyNum → CM κ → Py PyNum × CM κ
  | [], total, m => (.ok total, m)
  | c :: cs, total, m =>
    let (v, m') := m.read (cell c).1 (cell c).2
    match total.add v with
    | .error e => (.error e, m')
    | .ok total' => sumCellsS cell cs total' m'

/-- segeval/ml/__init__.py:63-92 a ratio of one class. -/
def classRatioS (o : ClassOrder κ) (site : List ℕ) (cell : κ → κ × κ) (m : CM κ) (c : κ)
    (returnParts : Bool) : Py ClassOut × CM κ :=
  let (cs, m1) := m.classes
  match sumCellsS cell (o.order site cs) (.int 0) m1 with
  | (.error e, m2) => (.error e, m2)
  | (.ok denominator, m2) =>
    let (numerator, m3) := m2.read c c
    (finishClass returnParts numerator denominator, m3)

/-- segeval/ml/__init__.py:63-76 `__precision__`. -/
def precisionClassS (o : ClassOrder κ) (site : List ℕ) (m : CM κ) (c : κ) (returnParts : Bool) :
    Py ClassOut × CM κ :=
  classRatioS o (0 :: site) (fun actual => (c, actual)) m c returnParts

/-- segeval/ml/__init__.py:79-92 `__recall__`. -/
def recallClassS (o : ClassOrder κ) (site : List ℕ) (m : CM κ) (c : κ) (returnParts : Bool) :
    Py ClassOut × CM κ :=
  classRatioS o (1 :: site) (fun predicted => (predicted, c)) m c returnParts

/-- segeval/ml/__init__.py:95-128 `__fmeasure__`: recall is asked for only if precision did not
raise. -/
def fmeasureClassS (o : ClassOrder κ) (beta : ℚ) (site : List ℕ) (m : CM κ) (c : κ)
    (returnParts : Bool) : Py ClassOut × CM κ :=
  match precisionClassS o site m c false with
  | (.error e, m1) => (.error e, m1)
  | (.ok (.parts _ _), m1) => (.error .unmodelled, m1)
  | (.ok (.value p), m1) =>
    match recallClassS o site m1 c false with
    | (.error e, m2) => (.error e, m2)
    | (.ok (.parts _ _), m2) => (.error .unmodelled, m2)
    | (.ok (.value r), m2) => (fFromRatios beta returnParts p.val r.val, m2)

/-- A function of one class, with the matrix afterwards (segeval/ml/__init__.py:18). -/
abbrev ClassFnS (κ : Type _) := List ℕ → CM κ → κ → Bool → Py ClassOut × CM κ

/-- segeval/ml/__init__.py:26-31 the loop of the micro average. -/
def microLoopS (fnc : ClassFnS κ) (site : List ℕ) :
    ℕ → List κ → PyNum × PyNum → CM κ → Py (PyNum × PyNum) × CM κ
  | _, [], acc, m => (.ok acc, m)
  | k, c :: cs, (numerator, denominator), m =>
    match fnc (k :: site) m c true with
    | (.error e, m') => (.error e, m')
    | (.ok (.value _), m') => (.error .unmodelled, m')
    | (.ok (.parts n d), m') =>
      match numerator.add n with
      | .error e => (.error e, m')
      | .ok numerator' =>
        match denominator.add d with
        | .error e => (.error e, m')
        | .ok denominator' => microLoopS fnc site (k + 1) cs (numerator', denominator') m'

/-- segeval/ml/__init__.py:39-42 the loop of the macro average. -/
def macroLoopS (fnc : ClassFnS κ) (site : List ℕ) :
    ℕ → List κ → List PyNum → CM κ → Py (List PyNum) × CM κ
  | _, [], acc, m => (.ok acc, m)
  | k, c :: cs, acc, m =>
    match fnc (k :: site) m c false with
    | (.error e, m') => (.error e, m')
    | (.ok (.parts _ _), m') => (.error .unmodelled, m')
    | (.ok (.value v), m') => macroLoopS fnc site (k + 1) cs (acc ++ [v]) m'

/-- segeval/ml/__init__.py:21-51 `__value_micro_macro__` on one matrix. -/
def valueMicroMacroS (o : ClassOrder κ) (fnc : ClassFnS κ) (site : List ℕ)
    (classification : Option κ) (version : Average) (m : CM κ) : Py PyNum × CM κ :=
  let (cs, m1) := m.classes
  match classification with
  | some c =>
    match fnc (0 :: site) m1 c false with
    | (.error e, m') => (.error e, m')
    | (.ok (.parts _ _), m') => (.error .unmodelled, m')
    | (.ok (.value v), m') => (.ok v, m')
  | none =>
    match version with
    | .micro =>
      match microLoopS fnc site 0 (o.order (2 :: site) cs) (.int 0, .int 0) m1 with
      | (.error e, m') => (.error e, m')
      | (.ok (numerator, denominator), m') =>
        if numerator.val = 0 then (.ok (.int 0), m')
        else (numerator.toDecimal.truediv denominator, m')
    | .macro =>
      match macroLoopS fnc site 0 (o.order (2 :: site) cs) [] m1 with
      | (.error e, m') => (.error e, m')
      | (.ok values, m') => (pyMean values, m')
    | .other => (.error .segmentationMetricError, m1)

/-- segeval/ml/__init__.py:131-147 `precision` of one matrix. -/
def precisionS (o : ClassOrder κ) (site : List ℕ) (classification : Option κ) (version : Average)
    (m : CM κ) : Py PyNum × CM κ :=
  valueMicroMacroS o (precisionClassS o) site classification version m

/-- segeval/ml/__init__.py:150-166 `recall` of one matrix. -/
def recallS (o : ClassOrder κ) (site : List ℕ) (classification : Option κ) (version : Average)
    (m : CM κ) : Py PyNum × CM κ :=
  valueMicroMacroS o (recallClassS o) site classification version m

/-- segeval/ml/__init__.py:169-187 `fmeasure` of one matrix. -/
def fmeasureS (o : ClassOrder κ) (site : List ℕ) (classification : Option κ) (beta : ℚ)
    (version : Average) (m : CM κ) : Py PyNum × CM κ :=
  valueMicroMacroS o (fmeasureClassS o beta) site classification version m

/-- segeval/ml/__init__.py:52-60 a query on a dict of matrices.  The dict holds references: `d` gives
the number of the matrix object of each label, `mats` the objects.  `query` is the call on one
matrix; when it raises, the matrices of later labels have not been touched. -/
def valueOverDictS {ι : Type _} [DecidableEq ι] (query : ℕ → CM κ → Py PyNum × CM κ) :
    ℕ → List (ι × ℕ) → List (ι × PyNum) → (ℕ → CM κ) → Py (List (ι × PyNum)) × (ℕ → CM κ)
  | _, [], values, mats => (.ok values, mats)
  | k, (l, i) :: d, values, mats =>
    match query k (mats i) with
    | (.error e, m') => (.error e, Function.update mats i m')
    | (.ok v, m') => valueOverDictS query (k + 1) d (dictSet values l v) (Function.update mats i m')

end State

end SegEval
