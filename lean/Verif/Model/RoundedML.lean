import Verif.Model.Rounded
import Verif.Model.ML

/-!
# Precision, recall and F-measure with rounded arithmetic

The functions of `Model/ML.lean` (`segeval/ml/__init__.py`, `segeval/similarity/__init__.py:83-123`)
again, with every addition, product, quotient and square rounded.  `Decimal(x)` of an int, a
`Decimal` or a `float` is exact, and so is `Decimal(str(beta))` for a `Decimal` or an int.
-/

namespace SegEval

variable {κ : Type _} [DecidableEq κ]

/-- `matrix[p][a] += v` (segeval/similarity/__init__.py:102-122). -/
def CM.incrR (ρ : Rounding) (m : CM κ) (p a : κ) (v : PyNum) : Py (CM κ) :=
  let (old, m') := m.read p a
  match PyNum.addR ρ old v with
  | .error e => .error e
  | .ok new => .ok (m'.write p a new)

/-- segeval/ml/__init__.py:67-68 and 83-84: sum of the cells `cell c` over the classes `cs`. -/
def sumCellsR (ρ : Rounding) (cell : κ → κ × κ) : List κ → PyNum × CM κ → MPy κ PyNum
  | [], acc => .ok acc
  | c :: cs, (total, m) =>
    let (v, m') := m.read (cell c).1 (cell c).2
    match PyNum.addR ρ total v with
    | .error e => .error e
    | .ok total' => sumCellsR ρ cell cs (total', m')

/-- segeval/ml/__init__.py:69-76 and 85-92 the common tail of `__precision__` and `__recall__`. -/
def finishClassR (ρ : Rounding) (returnParts : Bool) (numerator denominator : PyNum) :
    Py ClassOut :=
  if returnParts then .ok (.parts numerator denominator)
  else if numerator.isZeroObj then .ok (.value (.dec 0))
  else
    match PyNum.truedivR ρ numerator.toDecimal denominator.toDecimal with
    | .error e => .error e
    | .ok x => .ok (.value x)

/-- A per-class ratio whose denominator sums the cells `cell c` (segeval/ml/__init__.py:63-92). -/
def classRatioR (ρ : Rounding) (o : ClassOrder κ) (site : List ℕ) (cell : κ → κ × κ) (m : CM κ)
    (c : κ) (returnParts : Bool) : MPy κ ClassOut :=
  let (cs, m1) := m.classes
  match sumCellsR ρ cell (o.order site cs) (.int 0, m1) with
  | .error e => .error e
  | .ok (denominator, m2) =>
    let (numerator, m3) := m2.read c c
    match finishClassR ρ returnParts numerator denominator with
    | .error e => .error e
    | .ok out => .ok (out, m3)

/-- segeval/ml/__init__.py:63-76 `__precision__`. -/
def precisionClassR (ρ : Rounding) (o : ClassOrder κ) (site : List ℕ) (m : CM κ) (c : κ)
    (returnParts : Bool) : MPy κ ClassOut :=
  classRatioR ρ o (0 :: site) (fun actual => (c, actual)) m c returnParts

/-- segeval/ml/__init__.py:79-92 `__recall__`. -/
def recallClassR (ρ : Rounding) (o : ClassOrder κ) (site : List ℕ) (m : CM κ) (c : κ)
    (returnParts : Bool) : MPy κ ClassOut :=
  classRatioR ρ o (1 :: site) (fun predicted => (predicted, c)) m c returnParts

/-- segeval/ml/__init__.py:115-128 the F-measure of two ratios. -/
def fFromRatiosR (ρ : Rounding) (beta : ℚ) (returnParts : Bool) (p r : ℚ) : Py ClassOut :=
  if returnParts = false ∧ (p = 0 ∨ r = 0) then .ok (.value (.int 0))
  else
    let beta2 := ρ.sq (beta * beta)
    let beta21 := ρ.dec (1 + beta2)
    let numerator := ρ.dec (ρ.dec (beta21 * p) * r)
    let denominator := ρ.dec (ρ.dec (beta2 * p) + r)
    if returnParts then .ok (.parts (.dec numerator) (.dec denominator))
    else
      match PyNum.truedivR ρ (.dec numerator) (.dec denominator) with
      | .error e => .error e
      | .ok x => .ok (.value x)

/-- segeval/ml/__init__.py:95-128 `__fmeasure__`. -/
def fmeasureClassR (ρ : Rounding) (o : ClassOrder κ) (beta : ℚ) (site : List ℕ) (m : CM κ) (c : κ)
    (returnParts : Bool) : MPy κ ClassOut :=
  match precisionClassR ρ o site m c false with
  | .error e => .error e
  | .ok (.parts _ _, _) => .error .unmodelled
  | .ok (.value p, m1) =>
    match recallClassR ρ o site m1 c false with
    | .error e => .error e
    | .ok (.parts _ _, _) => .error .unmodelled
    | .ok (.value r, m2) =>
      match fFromRatiosR ρ beta returnParts p.val r.val with
      | .error e => .error e
      | .ok out => .ok (out, m2)

/-- segeval/ml/__init__.py:26-31 the micro-averaging loop; `k` counts iterations. -/
def microLoopR (ρ : Rounding) (fnc : ClassFn κ) (site : List ℕ) :
    ℕ → List κ → PyNum × PyNum → CM κ → MPy κ (PyNum × PyNum)
  | _, [], acc, m => .ok (acc, m)
  | k, c :: cs, (numerator, denominator), m =>
    match fnc (k :: site) m c true with
    | .error e => .error e
    | .ok (.value _, _) => .error .unmodelled
    | .ok (.parts n d, m') =>
      match PyNum.addR ρ numerator n with
      | .error e => .error e
      | .ok numerator' =>
        match PyNum.addR ρ denominator d with
        | .error e => .error e
        | .ok denominator' => microLoopR ρ fnc site (k + 1) cs (numerator', denominator') m'

/-- segeval/ml/__init__.py:21-51 `__value_micro_macro__` on one matrix. -/
def valueMicroMacroR (ρ : Rounding) (o : ClassOrder κ) (fnc : ClassFn κ) (site : List ℕ)
    (classification : Option κ) (version : Average) (m : CM κ) : MPy κ PyNum :=
  let (cs, m1) := m.classes
  match classification with
  | some c =>
    match fnc (0 :: site) m1 c false with
    | .error e => .error e
    | .ok (.parts _ _, _) => .error .unmodelled
    | .ok (.value v, m') => .ok (v, m')
  | none =>
    match version with
    | .micro =>
      match microLoopR ρ fnc site 0 (o.order (2 :: site) cs) (.int 0, .int 0) m1 with
      | .error e => .error e
      | .ok ((numerator, denominator), m') =>
        if numerator.val = 0 then .ok (.int 0, m')
        else
          match PyNum.truedivR ρ numerator.toDecimal denominator with
          | .error e => .error e
          | .ok x => .ok (x, m')
    | .macro =>
      match macroLoop fnc site 0 (o.order (2 :: site) cs) [] m1 with
      | .error e => .error e
      | .ok (values, m') =>
        match pyMeanR ρ values with
        | .error e => .error e
        | .ok x => .ok (x, m')
    | .other => .error .segmentationMetricError

/-- segeval/ml/__init__.py:131-147 `precision` of one matrix. -/
def precisionR (ρ : Rounding) (o : ClassOrder κ) (site : List ℕ) (classification : Option κ)
    (version : Average) (m : CM κ) : MPy κ PyNum :=
  valueMicroMacroR ρ o (precisionClassR ρ o) site classification version m

/-- segeval/ml/__init__.py:150-166 `recall` of one matrix. -/
def recallR (ρ : Rounding) (o : ClassOrder κ) (site : List ℕ) (classification : Option κ)
    (version : Average) (m : CM κ) : MPy κ PyNum :=
  valueMicroMacroR ρ o (recallClassR ρ o) site classification version m

/-- segeval/ml/__init__.py:169-187 `fmeasure` of one matrix. -/
def fmeasureR (ρ : Rounding) (o : ClassOrder κ) (site : List ℕ) (classification : Option κ)
    (beta : ℚ) (version : Average) (m : CM κ) : MPy κ PyNum :=
  valueMicroMacroR ρ o (fmeasureClassR ρ o beta) site classification version m

/-! ## The confusion matrix of boundary edit distance -/

/-- segeval/similarity/__init__.py:101-102. -/
def addMatchesR (ρ : Rounding) (m : CM BLabel) (l : List ℤ) : Py (CM BLabel) :=
  forLoop l m (fun m t => m.incrR ρ (some t) (some t) (.int 1))

/-- segeval/similarity/__init__.py:105-106 one transposition. -/
def addTranspositionR (ρ : Rounding) (w : Weights) (nT : ℤ) (m : CM BLabel) (t : Transposition) :
    Py (CM BLabel) :=
  match w.t [t] nT with
  | .error e => .error e
  | .ok v => m.incrR ρ (some t.type) (some t.type) v

/-- segeval/similarity/__init__.py:108-110. -/
def addSubstitutionsR (ρ : Rounding) (m : CM BLabel) (l : List Substitution) : Py (CM BLabel) :=
  forLoop l m (fun m s => m.incrR ρ (some s.typeA) (some s.typeB) (.int 1))

/-- segeval/similarity/__init__.py:113-122 one addition. -/
def addAdditionR (ρ : Rounding) (m : CM BLabel) (d : Addition) : Py (CM BLabel) :=
  match d.side with
  | .a => m.incrR ρ none (some d.type) (.int 1)
  | .b => m.incrR ρ (some d.type) none (.int 1)

/-- segeval/similarity/__init__.py:98-123 filling the matrix from the statistics. -/
def matrixOfStatisticsR (ρ : Rounding) (w : Weights) (nT : ℤ) (st : Statistics) :
    Py (CM BLabel) :=
  match addMatchesR ρ {} st.matches' with
  | .error e => .error e
  | .ok m1 =>
    match forLoop st.edits.transpositions m1 (addTranspositionR ρ w nT) with
    | .error e => .error e
    | .ok m2 =>
      match addSubstitutionsR ρ m2 st.edits.substitutions with
      | .error e => .error e
      | .ok m3 => forLoop st.edits.additions m3 (addAdditionR ρ)

/-- segeval/similarity/__init__.py:83-123 `__boundary_confusion_matrix__`. -/
def boundaryConfusionMatrixR (ρ : Rounding) (rt : Runtime) (kw : SimKw) (a b : Seg) :
    Py (CM BLabel) :=
  match boundaryStatisticsR ρ rt kw.boundaryFormat kw.nT kw.weight a b with
  | .error e => .error e
  | .ok st => matrixOfStatisticsR ρ kw.weight kw.nT st

end SegEval
