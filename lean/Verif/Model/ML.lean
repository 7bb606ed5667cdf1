import Verif.Model.Similarity

/-!
# Model of `segeval/ml/__init__.py` and of `segeval/similarity/__init__.py:83-123`

Matrices are values threaded through the calls, because reading a cell can change the object.
-/

namespace SegEval

/-- The order in which a `for` loop visits a set of class labels, one choice per loop instance
(segeval/ml/__init__.py:26, 39, 67, 83). -/
structure ClassOrder (κ : Type _) where
  order : List ℕ → Finset κ → List κ
  nodup : ∀ site s, (order site s).Nodup
  mem : ∀ site s x, x ∈ order site s ↔ x ∈ s

/-- The ascending list of a set (used only to give one concrete iteration order) (not in
segeval/ml/__init__.py). -/
def sortedBy {κ : Type _} (r : κ → κ → Prop) [DecidableRel r] [Std.Total r] [IsTrans κ r]
    [Std.Antisymm r] (s : Finset κ) : List κ :=
  Quot.liftOn s.val (fun l => l.insertionSort r) (fun _ _ h =>
    List.Perm.eq_of_pairwise'
      (List.pairwise_insertionSort (r := r) _) (List.pairwise_insertionSort (r := r) _)
      (((List.perm_insertionSort _ _).trans h).trans (List.perm_insertionSort _ _).symm))

theorem sortedBy_coe {κ : Type _} (r : κ → κ → Prop) [DecidableRel r] [Std.Total r] [IsTrans κ r]
    [Std.Antisymm r] (s : Finset κ) : (sortedBy r s : Multiset κ) = s.val := by
  rcases s with ⟨⟨l⟩, h⟩
  exact Multiset.coe_eq_coe.2 (List.perm_insertionSort r l)

/-- One concrete iteration order, for examples and tests only (not in segeval/ml/__init__.py). -/
def ClassOrder.sorted {κ : Type _} (r : κ → κ → Prop) [DecidableRel r] [Std.Total r] [IsTrans κ r]
    [Std.Antisymm r] : ClassOrder κ where
  order _ s := sortedBy r s
  nodup _ s := by
    have h := s.nodup
    rw [← sortedBy_coe r s] at h
    exact Multiset.coe_nodup.1 h
  mem _ s x := by
    rw [← Multiset.mem_coe, sortedBy_coe]; exact Iff.rfl

/-- segeval/ml/__init__.py:190-252 `ConfusionMatrix` with its `_InnerConfusionMatrix` rows: the rows
in
insertion order, the cached class set and the dirty flag. -/
structure CM (κ : Type _) where
  rows : List (κ × List (κ × PyNum)) := []
  cached : Finset κ := ∅
  dirty : Bool := false
  deriving DecidableEq

namespace CM

variable {κ : Type _} [DecidableEq κ]

/-- segeval/ml/__init__.py:218-239 `__getitem__`: create the row if absent (the flag is not
touched). -/
def touch (m : CM κ) (p : κ) : CM κ :=
  match dictGet m.rows p with
  | some _ => m
  | none => { m with rows := dictSet m.rows p [] }

/-- The row of a label, empty if absent (segeval/ml/__init__.py:218-239). -/
def row (m : CM κ) (p : κ) : List (κ × PyNum) := (dictGet m.rows p).getD []

/-- segeval/ml/__init__.py:201-203 `matrix[p][a] = v`: the inner `__setitem__` raises the flag. -/
def write (m : CM κ) (p a : κ) (v : PyNum) : CM κ :=
  let m' := m.touch p
  { m' with rows := dictSet m'.rows p (dictSet (m'.row p) a v), dirty := true }

/-- `matrix[p][a]` as an expression: `defaultdict.__missing__` stores the default `0` through the
overridden `__setitem__` when the cell is absent (segeval/ml/__init__.py:197-203,218-239). -/
def read (m : CM κ) (p a : κ) : PyNum × CM κ :=
  let m' := m.touch p
  match dictGet (m'.row p) a with
  | some v => (v, m')
  | none => (.int 0, m'.write p a (.int 0))

/-- `matrix[p][a] += v` (segeval/similarity/__init__.py:102-122). -/
def incr (m : CM κ) (p a : κ) (v : PyNum) : Py (CM κ) :=
  let (old, m') := m.read p a
  match old.add v with
  | .error e => .error e
  | .ok new => .ok (m'.write p a new)

/-- The labels of all rows and cells (segeval/ml/__init__.py:246-250). -/
def labels (m : CM κ) : Finset κ :=
  m.rows.foldl (fun acc r => insert r.1 (r.2.foldl (fun acc c => insert c.1 acc) acc)) ∅

/-- segeval/ml/__init__.py:241-252 `classes()`. -/
def classes (m : CM κ) : Finset κ × CM κ :=
  if m.dirty then (m.labels, { m with cached := m.labels, dirty := false }) else (m.cached, m)

end CM

section Metrics

variable {κ : Type _} [DecidableEq κ]

/-- A computation on a matrix that may raise (segeval/ml/__init__.py:218-252). -/
abbrev MPy (κ : Type _) (α : Type _) := Py (α × CM κ)

/-- The two shapes returned by the per-class functions (segeval/ml/__init__.py:70-76, 86-92,
125-128). -/
inductive ClassOut
  | value (x : PyNum)
  | parts (numerator denominator : PyNum)
  deriving DecidableEq

/-- segeval/ml/__init__.py:67-68 and 83-84: sum of the cells `cell c` over the classes `cs`. -/
def sumCells (cell : κ → κ × κ) : List κ → PyNum × CM κ → MPy κ PyNum
  | [], acc => .ok acc
  | c :: cs, (total, m) =>
    let (v, m') := m.read (cell c).1 (cell c).2
    match total.add v with
    | .error e => .error e
    | .ok total' => sumCells cell cs (total', m')

/-- segeval/ml/__init__.py:69-76 and 85-92 the common tail of `__precision__` and `__recall__`. -/
def finishClass (returnParts : Bool) (numerator denominator : PyNum) : Py ClassOut :=
  if returnParts then .ok (.parts numerator denominator)
  else if numerator.isZeroObj then .ok (.value (.dec 0))
  else
    match numerator.toDecimal.truediv denominator.toDecimal with
    | .error e => .error e
    | .ok x => .ok (.value x)

/-- A per-class ratio whose denominator sums the cells `cell c` (segeval/ml/__init__.py:63-92). -/
def classRatio (o : ClassOrder κ) (site : List ℕ) (cell : κ → κ × κ) (m : CM κ) (c : κ)
    (returnParts : Bool) : MPy κ ClassOut :=
  let (cs, m1) := m.classes
  match sumCells cell (o.order site cs) (.int 0, m1) with
  | .error e => .error e
  | .ok (denominator, m2) =>
    let (numerator, m3) := m2.read c c
    match finishClass returnParts numerator denominator with
    | .error e => .error e
    | .ok out => .ok (out, m3)

/-- segeval/ml/__init__.py:63-76 `__precision__`. -/
def precisionClass (o : ClassOrder κ) (site : List ℕ) (m : CM κ) (c : κ) (returnParts : Bool) :
    MPy κ ClassOut :=
  classRatio o (0 :: site) (fun actual => (c, actual)) m c returnParts

/-- segeval/ml/__init__.py:79-92 `__recall__`. -/
def recallClass (o : ClassOrder κ) (site : List ℕ) (m : CM κ) (c : κ) (returnParts : Bool) :
    MPy κ ClassOut :=
  classRatio o (1 :: site) (fun predicted => (predicted, c)) m c returnParts

/-- segeval/ml/__init__.py:115-128 the F-measure of two ratios.  `Decimal(str(beta))` is the value
of
`beta` for a `Decimal` or int. -/
def fFromRatios (beta : ℚ) (returnParts : Bool) (p r : ℚ) : Py ClassOut :=
  if returnParts = false ∧ (p = 0 ∨ r = 0) then .ok (.value (.int 0))
  else
    let beta2 := beta ^ 2
    let numerator := (1 + beta2) * p * r
    let denominator := beta2 * p + r
    if returnParts then .ok (.parts (.dec numerator) (.dec denominator))
    else
      match (PyNum.dec numerator).truediv (.dec denominator) with
      | .error e => .error e
      | .ok x => .ok (.value x)

/-- segeval/ml/__init__.py:95-128 `__fmeasure__`. -/
def fmeasureClass (o : ClassOrder κ) (beta : ℚ) (site : List ℕ) (m : CM κ) (c : κ)
    (returnParts : Bool) : MPy κ ClassOut :=
  match precisionClass o site m c false with
  | .error e => .error e
  | .ok (.parts _ _, _) => .error .unmodelled
  | .ok (.value p, m1) =>
    match recallClass o site m1 c false with
    | .error e => .error e
    | .ok (.parts _ _, _) => .error .unmodelled
    | .ok (.value r, m2) =>
      match fFromRatios beta returnParts p.val r.val with
      | .error e => .error e
      | .ok out => .ok (out, m2)

/-- The per-class function passed to `__value_micro_macro__` (segeval/ml/__init__.py:18). -/
abbrev ClassFn (κ : Type _) := List ℕ → CM κ → κ → Bool → MPy κ ClassOut

/-- segeval/ml/__init__.py:15 `Average`; `other` is any value that is neither. -/
inductive Average | micro | macro | other
  deriving DecidableEq

/-- segeval/ml/__init__.py:26-31 the micro-averaging loop; `k` counts iterations. -/
def microLoop (fnc : ClassFn κ) (site : List ℕ) :
    ℕ → List κ → PyNum × PyNum → CM κ → MPy κ (PyNum × PyNum)
  | _, [], acc, m => .ok (acc, m)
  | k, c :: cs, (numerator, denominator), m =>
    match fnc (k :: site) m c true with
    | .error e => .error e
    | .ok (.value _, _) => .error .unmodelled
    | .ok (.parts n d, m') =>
      match numerator.add n with
      | .error e => .error e
      | .ok numerator' =>
        match denominator.add d with
        | .error e => .error e
        | .ok denominator' => microLoop fnc site (k + 1) cs (numerator', denominator') m'

/-- segeval/ml/__init__.py:39-42 the macro-averaging loop. -/
def macroLoop (fnc : ClassFn κ) (site : List ℕ) :
    ℕ → List κ → List PyNum → CM κ → MPy κ (List PyNum)
  | _, [], acc, m => .ok (acc, m)
  | k, c :: cs, acc, m =>
    match fnc (k :: site) m c false with
    | .error e => .error e
    | .ok (.parts _ _, _) => .error .unmodelled
    | .ok (.value v, m') => macroLoop fnc site (k + 1) cs (acc ++ [v]) m'

/-- segeval/util/math.py:10-26 `mean`. -/
def pyMean (values : List PyNum) : Py PyNum :=
  match forLoop values (.dec 0) PyNum.add with
  | .error e => .error e
  | .ok total => if 0 < values.length then total.truediv (.int values.length) else .ok (.int 0)

/-- segeval/ml/__init__.py:21-51 `__value_micro_macro__` on one matrix (`none` is the default
`classification=None`). -/
def valueMicroMacro (o : ClassOrder κ) (fnc : ClassFn κ) (site : List ℕ)
    (classification : Option κ) (version : Average) (m : CM κ) : MPy κ PyNum :=
  let (cs, m1) := m.classes
  match classification with
  | some c =>
    match fnc (0 :: site) m1 c false with
    | .error e => .error e
    | .ok (.parts _ _, _) => .error .unmodelled
    | .ok (.value v, m') => .ok (v, m')
  | none =>
    match version with
    | .micro =>
      match microLoop fnc site 0 (o.order (2 :: site) cs) (.int 0, .int 0) m1 with
      | .error e => .error e
      | .ok ((numerator, denominator), m') =>
        if numerator.val = 0 then .ok (.int 0, m')
        else
          match numerator.toDecimal.truediv denominator with
          | .error e => .error e
          | .ok x => .ok (x, m')
    | .macro =>
      match macroLoop fnc site 0 (o.order (2 :: site) cs) [] m1 with
      | .error e => .error e
      | .ok (values, m') =>
        match pyMean values with
        | .error e => .error e
        | .ok x => .ok (x, m')
    | .other => .error .segmentationMetricError

/-- segeval/ml/__init__.py:131-147 `precision` of one matrix. -/
def precision (o : ClassOrder κ) (site : List ℕ) (classification : Option κ) (version : Average)
    (m : CM κ) : MPy κ PyNum :=
  valueMicroMacro o (precisionClass o) site classification version m

/-- segeval/ml/__init__.py:150-166 `recall` of one matrix. -/
def recall (o : ClassOrder κ) (site : List ℕ) (classification : Option κ) (version : Average)
    (m : CM κ) : MPy κ PyNum :=
  valueMicroMacro o (recallClass o) site classification version m

/-- segeval/ml/__init__.py:169-187 `fmeasure` of one matrix. -/
def fmeasure (o : ClassOrder κ) (site : List ℕ) (classification : Option κ) (beta : ℚ)
    (version : Average) (m : CM κ) : MPy κ PyNum :=
  valueMicroMacro o (fmeasureClass o beta) site classification version m

end Metrics

/-! ## The confusion matrix of boundary edit distance -/

/-- The label of a boundary confusion matrix: a boundary type or `None`
(segeval/similarity/__init__.py:108-122). -/
abbrev BLabel := Option ℤ

/-- segeval/similarity/__init__.py:101-102. -/
def addMatches (m : CM BLabel) (l : List ℤ) : Py (CM BLabel) :=
  forLoop l m (fun m t => m.incr (some t) (some t) (.int 1))

/-- segeval/similarity/__init__.py:105-106 one transposition. -/
def addTransposition (w : Weights) (nT : ℤ) (m : CM BLabel) (t : Transposition) : Py (CM BLabel) :=
  match w.t [t] nT with
  | .error e => .error e
  | .ok v => m.incr (some t.type) (some t.type) v

/-- segeval/similarity/__init__.py:104-106. -/
def addTranspositions (w : Weights) (nT : ℤ) (m : CM BLabel) (l : List Transposition) :
    Py (CM BLabel) :=
  forLoop l m (addTransposition w nT)

/-- segeval/similarity/__init__.py:108-110 (`matrix[match][match] += fnc_weight_t(...)` evaluates
the cell
first, which cannot be observed). -/
def addSubstitutions (m : CM BLabel) (l : List Substitution) : Py (CM BLabel) :=
  forLoop l m (fun m s => m.incr (some s.typeA) (some s.typeB) (.int 1))

/-- segeval/similarity/__init__.py:113-122 one addition. -/
def addAddition (m : CM BLabel) (d : Addition) : Py (CM BLabel) :=
  match d.side with
  | .a => m.incr none (some d.type) (.int 1)
  | .b => m.incr (some d.type) none (.int 1)

/-- segeval/similarity/__init__.py:112-122. -/
def addAdditions (m : CM BLabel) (l : List Addition) : Py (CM BLabel) :=
  forLoop l m addAddition

/-- segeval/similarity/__init__.py:98-123 filling the matrix from the statistics. -/
def matrixOfStatistics (w : Weights) (nT : ℤ) (st : Statistics) : Py (CM BLabel) :=
  match addMatches {} st.matches' with
  | .error e => .error e
  | .ok m1 =>
    match addTranspositions w nT m1 st.edits.transpositions with
    | .error e => .error e
    | .ok m2 =>
      match addSubstitutions m2 st.edits.substitutions with
      | .error e => .error e
      | .ok m3 => addAdditions m3 st.edits.additions

/-- segeval/similarity/__init__.py:83-123 `__boundary_confusion_matrix__`. -/
def boundaryConfusionMatrix (rt : Runtime) (kw : SimKw) (a b : Seg) : Py (CM BLabel) :=
  match boundaryStatistics rt kw.boundaryFormat kw.nT kw.weight a b with
  | .error e => .error e
  | .ok st => matrixOfStatistics kw.weight kw.nT st

end SegEval
