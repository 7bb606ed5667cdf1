import Verif.Model.Data
import Verif.Model.Agreement
import Mathlib.Data.List.Lex

/-!
# The repository's unit-test vectors, evaluated in the model

These are tests of the model (closed computations checked by the kernel), not proofs of properties.
-/

namespace SegEval.Tests

open SegEval

abbrev rt : Runtime := Runtime.ascending

def masses (l : List ℤ) : Seg := .ints true (l.map (fun x => ⟨x, 0⟩))
def labels (l : List ℤ) : Seg := .ints false (l.map (fun x => ⟨x, 0⟩))

/-- Is the result a number within 10^-7 of `q`? -/
def near (r : Py MetricOut) (q : ℚ) : Bool :=
  match r with
  | .ok (.num x) => decide (|x.val - q| < 1 / 10 ^ 7)
  | _ => false

def add' (t : ℤ) (s : Side) : Addition := ⟨t, s⟩

/-! ## similarity/distance/multipleboundary_test.py -/

def e : Finset ℤ := ∅

example : boundaryEditDistance rt [e, {1}, e, e, {1}, e, e, e, e, e]
    [e, {1}, e, e, {1}, e, e, e, e, e] 2 = .ok ⟨[], [], []⟩ := by decide +kernel
example : boundaryEditDistance rt (List.replicate 10 e) (List.replicate 10 {1}) 2 =
    .ok ⟨List.replicate 10 ⟨1, .b⟩, [], []⟩ := by decide +kernel
example : boundaryEditDistance rt [e, {1}, e, e, {1}, e, e, e, e, e]
    [e, {2, 3}, e, e, e, {1}, e, e, {3}, e] 2 =
    .ok ⟨[⟨3, .b⟩, ⟨3, .b⟩], [⟨1, 2⟩], [⟨4, 5, 1⟩]⟩ := by decide +kernel
example : boundaryEditDistance rt [e, e, e, {2}, e, e, {2}, e, e, e]
    [e, e, e, e, e, {2}, e, e, e, e] 2 = .ok ⟨[⟨2, .a⟩], [], [⟨5, 6, 2⟩]⟩ := by decide +kernel
example : boundaryEditDistance rt [e, e, e, e, {2}, e, {2}, e, e, e]
    [e, e, e, e, e, {2}, e, e, e, e] 2 = .ok ⟨[⟨2, .a⟩], [], [⟨4, 5, 2⟩]⟩ := by decide +kernel
example : boundaryEditDistance rt [e, e, e, {2}, e, {1}, e, e, e, e]
    [e, e, e, {1}, e, {2}, e, e, e, e] 3 = .ok ⟨[], [⟨2, 1⟩, ⟨1, 2⟩], []⟩ := by decide +kernel
example : boundaryEditDistance rt [e, e, e, {2, 4}, e, {3}, e, e, e, e]
    [e, e, e, {1}, e, {2}, e, e, e, e] 3 =
    .ok ⟨[⟨4, .a⟩], [⟨2, 1⟩, ⟨3, 2⟩], []⟩ := by decide +kernel
example : boundaryEditDistance rt [e, e, e, {2}, e, {3}, e, e, e, e]
    [e, e, e, {1, 4}, e, {2}, e, e, e, e] 3 =
    .ok ⟨[⟨4, .b⟩], [⟨2, 1⟩, ⟨3, 2⟩], []⟩ := by decide +kernel
example : boundaryEditDistance rt [e, e, e, {1, 2, 3}, e, e, e, e, e, e]
    [e, e, e, e, {3}, {1, 2}, e, e, e, e] 3 =
    .ok ⟨[], [], [⟨3, 4, 3⟩, ⟨3, 5, 1⟩, ⟨3, 5, 2⟩]⟩ := by decide +kernel
example : additionsSubstitutions {2, 3, 4, 6} {2, 3, 4} {6} = (2, 1) := by decide +kernel
example : additionsSubstitutionsSets rt 0 {2, 3, 4, 6} {2, 3, 4} {6} =
    .ok ([⟨2, .a⟩, ⟨3, .a⟩], [⟨4, 6⟩]) := by decide +kernel

/-! ## similarity/boundary_test.py, segmentation_test.py -/

example : near (boundarySimilarity rt {} (masses [2, 3, 6]) (masses [5, 6])) (1 / 2) = true := by
  decide +kernel
example : near (boundarySimilarity rt {} (masses [2, 3, 6]) (masses [2, 3, 3, 3])) (2 / 3) = true := by
  decide +kernel
example : near (boundarySimilarity rt {} (masses [2, 3, 6]) (masses [2, 2, 7])) (3 / 4) = true := by
  decide +kernel
example : near (boundarySimilarity rt { oneMinus := true } (masses [2, 3, 6]) (masses [2, 2, 7]))
    (1 / 4) = true := by decide +kernel
example : near (boundarySimilarity rt { boundaryFormat := .nltk }
    (.str ['0', '1', '0', '0', '1', '0', '0', '0', '0', '0', '0'])
    (.str ['0', '1', '0', '1', '0', '0', '0', '0', '0', '0', '0'])) (3 / 4) = true := by
  decide +kernel
example : near (boundarySimilarity rt {} (masses [2, 3, 6]) (masses [1, 1, 3, 1, 5])) (1 / 2)
    = true := by decide +kernel
example : near (boundarySimilarity rt { boundaryFormat := .position }
    (labels [1, 1, 1, 1, 1, 1, 1, 1, 1, 1, 1, 1, 1])
    (labels [1, 1, 1, 1, 2, 2, 2, 2, 3, 3, 3, 3, 3])) 0 = true := by decide +kernel
example : boundarySimilarity rt { weight := .unscaled } (masses [2, 3, 6]) (masses [5, 6]) =
    .ok (.num (.flt (1 / 2))) := by decide +kernel
example : boundarySimilarity rt { boundaryFormat := .other } (masses [2]) (masses [2]) =
    .error .segmentationMetricError := by decide +kernel
example : near (boundarySimilarity rt {} (masses [2, 6, 4, 2, 4, 3]) (masses [2, 3, 3, 1, 3, 6, 3]))
    0.571428571428 = true := by decide +kernel
example : near (boundarySimilarity rt {} (masses [2, 1, 1, 1, 5, 8, 2, 1])
    (masses [2, 3, 3, 1, 3, 6, 3])) 0.38888888888 = true := by decide +kernel
example : near (segmentationSimilarity rt {} (masses [2, 3, 6]) (masses [5, 6])) 0.9 = true := by
  decide +kernel
example : near (segmentationSimilarity rt {} (masses [2, 3, 6]) (masses [2, 2, 7])) 0.95 = true := by
  decide +kernel
example : near (segmentationSimilarity rt { oneMinus := true } (masses [2, 3, 6]) (masses [2, 2, 7]))
    0.05 = true := by decide +kernel
example : segmentationSimilarity rt { returnParts := true } (masses [2, 3, 6]) (masses [5, 6]) =
    .ok (.parts (.dec 9) (.int 10)) := by decide +kernel
example : segmentationSimilarity rt {} (masses [2, 2, 7]) (masses [2, 2, 8]) =
    .error .segmentationMetricError := by decide +kernel
example : near (segmentationSimilarity rt {} (masses [2, 1, 1, 1, 5, 8, 2, 1])
    (masses [2, 8, 2, 4, 2, 3])) 0.7 = true := by decide +kernel

/-! ## window/windowdiff_test.py, pk_test.py -/

def pos : WinKw := { boundaryFormat := .position }

example : near (windowDiff { oneMinus := true } (masses [2, 3, 6]) (masses [2, 2, 7])) 0.777777777
    = true := by decide +kernel
example : near (windowDiff pos (labels [1, 1, 1, 1, 1, 1, 1, 1, 1, 1, 1, 1, 1])
    (labels [1, 1, 1, 1, 2, 2, 2, 2, 3, 3, 3, 3, 3])) 0.36363636363 = true := by decide +kernel
example : near (windowDiff pos (labels [1, 1, 1, 1, 2, 2, 2, 2, 3, 3, 3, 3, 3])
    (labels [1, 1, 1, 1, 1, 1, 1, 1, 1, 1, 1, 1, 1])) 1 = true := by decide +kernel
example : near (windowDiff pos (labels [1, 1, 1, 1, 2, 2, 2, 2, 3, 3, 3, 3, 3])
    (labels [1, 1, 1, 1, 1, 2, 3, 3, 4, 4, 4, 4, 4])) 0.27272727272 = true := by decide +kernel
example : windowDiff { boundaryFormat := .position, returnParts := true }
    (labels [1, 2, 3, 4, 5, 6, 7, 8, 9, 10, 11, 12, 13])
    (labels [1, 1, 1, 1, 2, 2, 2, 2, 3, 3, 3, 3, 3]) = .ok (.parts (.int 11) (.int 11)) := by
  decide +kernel
example : windowDiff { boundaryFormat := .sets } (masses [2, 3, 6]) (masses [2, 2, 7]) =
    .error .segmentationMetricError := by decide +kernel
example : near (windowDiff {} (masses [12]) (masses [6, 6])) (3 / 9) = true := by decide +kernel
example : near (windowDiff {} (masses [1, 5, 6]) (masses [6, 6])) (1 / 9) = true := by decide +kernel
example : near (windowDiff {} (masses [5, 1, 1, 5]) (masses [6, 6])) (5 / 9) = true := by
  decide +kernel
example : near (windowDiff { boundaryFormat := .nltk, windowSize := some 3 }
    (.str ['1', '0', '0', '0', '0', '0', '0', '1', '0', '0', '0', '0'])
    (.str ['0', '0', '0', '0', '1', '0', '0', '0', '0', '1', '0', '0'])) 0.8 = true := by
  decide +kernel
example : near (windowDiff {} (masses [2, 31, 4, 1, 1, 3, 11, 5, 21, 4, 2, 1, 17, 26, 16, 1, 17, 4,
    3, 7, 7, 6, 12, 1, 6, 25, 2, 4, 3, 16, 8]) (masses [2, 36, 1, 3, 10, 1, 5, 21, 4, 3, 59, 8, 10,
    4, 3, 7, 13, 12, 7, 27, 4, 3, 24])) 0.2681992337164750957854406130 = true := by decide +kernel
example : near (windowDiff {} (masses [2, 1, 1, 1, 5, 8, 2, 1]) (masses [2, 3, 3, 1, 3, 6, 3]))
    0.473684210526 = true := by decide +kernel
example : near (pk { oneMinus := true } (masses [2, 3, 6]) (masses [2, 2, 7])) 0.777777777
    = true := by decide +kernel

/-! ## ml/test.py -/

def byName : ClassOrder Name := .sorted (· ≤ ·)

def matrixOf (l : List (Name × Name × ℤ)) : CM Name :=
  l.foldl (fun m c => match m.incr c.1 c.2.1 (.int c.2.2) with | .ok m' => m' | .error _ => m) {}

def p : Name := ['p']
def f : Name := ['f']

/-- Is the result a number within 10^-4 of `q`? -/
def nearM (r : MPy Name PyNum) (q : ℚ) : Bool :=
  match r with
  | .ok (x, _) => decide (|x.val - q| < 1 / 10 ^ 4)
  | _ => false

def m3 : CM Name := matrixOf [(p, p, 5), (p, f, 2), (f, p, 1), (f, f, 2)]

example : nearM (precision byName [] none .micro m3) 0.7 = true := by decide +kernel
example : nearM (precision byName [] none .macro m3) 0.69047 = true := by decide +kernel
example : nearM (precision byName [] (some p) .micro m3) 0.71428 = true := by decide +kernel
example : nearM (recall byName [] none .micro m3) 0.7 = true := by decide +kernel
example : nearM (recall byName [] none .macro m3) 0.66666 = true := by decide +kernel
example : nearM (recall byName [] (some f) .micro m3) 0.5 = true := by decide +kernel
example : nearM (fmeasure byName [] none 1 .micro m3) 0.68421 = true := by decide +kernel
example : nearM (fmeasure byName [] none 1 .macro m3) 0.67032 = true := by decide +kernel
example : nearM (fmeasure byName [] (some p) 1 .micro m3) 0.76923 = true := by decide +kernel
example : nearM (precision byName [] none .micro (matrixOf [])) 0 = true := by decide +kernel
example : nearM (precision byName [] none .macro (matrixOf [(p, p, 1), (p, f, 1)])) 0.25 = true := by
  decide +kernel
example : nearM (precision byName [] none .micro (matrixOf [(p, f, 2)])) 0 = true := by
  decide +kernel

/-! ## similarity/test.py -/

/-- The cell of a boundary confusion matrix. -/
def cell (r : Py (CM BLabel)) (i j : BLabel) : Option ℚ :=
  match r with
  | .ok m => some (m.read i j).1.val
  | .error _ => none

def cmTest : Py (CM BLabel) := boundaryConfusionMatrix rt { boundaryFormat := .sets }
  (.sets [e, {2}, e, e, {1}, {1}, {1}, {1}]) (.sets [{1}, {1}, e, {1}, e, {1}, e, e])

example : cell cmTest none (some 1) = some 2 := by decide +kernel
example : cell cmTest (some 1) none = some 1 := by decide +kernel
example : cell cmTest (some 2) (some 1) = some 1 := by decide +kernel
example : cell cmTest (some 1) (some 1) = some (3 / 2) := by decide +kernel
example : cell cmTest (some 2) (some 2) = some 0 := by decide +kernel

example : (match boundaryStatistics rt .mass 2 .default (masses [2, 3, 6]) (masses [5, 6]) with
    | .ok s => decide (s.matches' = [1] ∧ s.boundariesAll = 3 ∧ s.boundaryTypes = {1} ∧ s.pbs = 10 ∧
        s.edits = ⟨[⟨1, .a⟩], [], []⟩ ∧ s.fullMisses = [1] ∧ s.countEdits = .dec 1)
    | .error _ => false) = true := by decide +kernel

/-! ## agreement tests -/

def c1 : Name := ['c', '1']
def c2 : Name := ['c', '2']
def i1 : Name := ['i', '1']
def data1 : AgrData := .dict [(i1, [(c1, masses [2, 8, 2, 1]), (c2, masses [2, 1, 7, 2, 1])])]
def data2 : AgrData := .dict [(i1, [(c1, masses [2, 8, 2, 1]), (c2, masses [11, 2])])]
def cmpB : Compare := compareB rt 2 .default

/-- Is the result a number within 10^-7 of `q`? -/
def nearA (r : Py AgrOut) (q : ℚ) : Bool :=
  match r with
  | .ok (.value x) => decide (|x.val - q| < 1 / 10 ^ 7)
  | _ => false

example : nearA (fleissKappa byName cmpB .mass false data1) 0.7272727272727272 = true := by
  decide +kernel
example : nearA (fleissKappa byName cmpB .mass false data2) 0.1489361702127659 = true := by
  decide +kernel
example : nearA (fleissPi byName cmpB .mass false data1) 0.7267552182163187 = true := by
  decide +kernel

def multi : AgrData := .dataset
  { items := [(['i', '1'], [(c1, .sets [{1}, e, e, e, {1}]), (c2, .sets [{1}, e, e, e, {2}])]),
              (['i', '2'], [(c1, .sets [{1}, e, e, e, {1}]), (c2, .sets [e, e, e, {1}, e])])]
    coders := {c1, c2}
    boundaryFormat := .sets }

example : nearA (fleissKappa byName cmpB .mass false multi) 0.4718309859154929 = true := by
  decide +kernel
example : nearA (artsteinPoesioBias byName cmpB .mass false multi) 0.00916666666 = true := by
  decide +kernel

def ones (n : ℕ) : Seg := masses (List.replicate n 1)
def large : AgrData := .dict
  [(['i', '1'], [(c1, masses [12]), (c2, ones 12)]), (['i', '2'], [(c1, masses [20]), (c2, ones 20)]),
   (['i', '3'], [(c1, masses [5]), (c2, ones 5)]), (['i', '4'], [(c1, masses [42]), (c2, ones 42)])]

example : nearA (artsteinPoesioBias byName cmpB .mass false large) 0.25 = true := by decide +kernel
example : nearA (fleissPi byName cmpB .mass false large) (-0.33333333333333) = true := by
  decide +kernel

/-! ## docs/user/quickstart.rst: agreement of the seven coders of data/samples.py:113-122 -/

def stargazer : AgrData := .dataset
  { items := [("stargazer".toList,
      [(['1'], masses [2, 3, 3, 1, 3, 6, 3]), (['2'], masses [2, 8, 2, 4, 2, 3]),
       (['3'], masses [2, 1, 2, 3, 1, 3, 1, 3, 2, 2, 1]), (['4'], masses [2, 1, 4, 1, 1, 3, 1, 4, 3, 1]),
       (['5'], masses [3, 2, 4, 3, 5, 4]), (['6'], masses [2, 3, 4, 2, 2, 5, 3]),
       (['7'], masses [2, 3, 2, 2, 3, 1, 3, 2, 3])])]
    coders := {['1'], ['2'], ['3'], ['4'], ['5'], ['6'], ['7']}
    boundaryFormat := .mass }

/-- Is the result a number within 10^-27 of `q`? -/
def nearN (r : Py PyNum) (q : ℚ) : Bool :=
  match r with
  | .ok x => decide (|x.val - q| < 1 / 10 ^ 27)
  | _ => false

example : nearN (actualAgreement byName cmpB .mass stargazer)
    0.5300546448087431693989071038 = true := by decide +kernel
example : nearN (actualAgreement byName (compareS rt 2 .default) .mass stargazer)
    0.7952380952380952380952380952 = true := by decide +kernel

/-- The guide goes on to quote kappa 0.44149 and pi 0.44054 for the same data.  Those are the values one
gets by counting segments (56 in 140) where agreement/__init__.py:60-77 counts boundaries (49 in 140, as
agreement/test.py `test_boundaries_mass` requires); the code at this commit gives the values below. -/
example : fleissKappa byName cmpB .mass false stargazer = .ok (.value (.dec (209563 / 450363))) ∧
    fleissPi byName cmpB .mass false stargazer = .ok (.value (.dec (29833 / 64233))) ∧
    |((0.5300546448087431693989071038 - (56 / 140) ^ 2) / (1 - (56 / 140) ^ 2) : ℚ) -
      0.4405412438199323445225084569| < 1 / 10 ^ 27 := by
  refine ⟨by decide +kernel, by decide +kernel, by decide +kernel⟩

/-! ## docs/user/quickstart.rst: comparisons -/

def star1 : Seg := masses [2, 3, 3, 1, 3, 6, 3]
def star2 : Seg := masses [2, 8, 2, 4, 2, 3]
def hyp1 : Seg := masses [2, 6, 4, 2, 4, 3]

example : boundarySimilarity rt {} star1 star2 = .ok (.num (.dec 0.5)) := by decide +kernel
example : segmentationSimilarity rt {} star1 star2 = .ok (.num (.dec 0.825)) := by decide +kernel
example : boundarySimilarity rt {} hyp1 star1 = .ok (.num (.dec (4 / 7))) := by decide +kernel
example : near (windowDiff {} hyp1 star1) 0.3157894736842105263157894737 = true := by decide +kernel
example : near (pk {} hyp1 star1) 0.2631578947368421052631578947 = true := by decide +kernel
example : (match boundaryStatistics rt .mass 2 .default star1 star2 with
    | .ok s => decide (s.matches' = [1, 1, 1] ∧ s.boundariesAll = 11 ∧ s.pbs = 20 ∧
        s.edits.transpositions = [⟨8, 9, 1⟩] ∧ s.edits.substitutions = [] ∧
        s.fullMisses = [1, 1, 1, 1, 1] ∧
        (s.edits.additions.map Addition.side).Perm [.b, .a, .a] ∧ s.countEdits = .dec 3.5)
    | .error _ => false) = true := by decide +kernel

def byLabel : ClassOrder BLabel := ClassOrder.sorted (κ := WithBot ℤ) (· ≤ ·)

/-- Precision, recall and F-measure of a boundary confusion matrix. -/
def prf (r : Py (CM BLabel)) : Option (ℚ × ℚ × ℚ) :=
  match r with
  | .error _ => none
  | .ok m =>
    match precision byLabel [] none .micro m, recall byLabel [] none .micro m,
      fmeasure byLabel [] none 1 .micro m with
    | .ok (p, _), .ok (r, _), .ok (f, _) => some (p.val, r.val, f.val)
    | _, _, _ => none

example : prf (boundaryConfusionMatrix rt {} hyp1 star1) = some (4 / 7, 4 / 7, 8 / 11) := by
  decide +kernel
example : prf (boundaryConfusionMatrix rt {} (masses [5, 5, 5, 5, 1]) star2) =
    some (3 / 13, 3 / 13, 3 / 8) := by decide +kernel

def hyp2 : Seg := masses [2, 1, 1, 1, 5, 8, 2, 1]

/-- The table of two datasets. -/
example : (["3", "6", "1", "7", "5", "2", "4"].map fun c =>
    [hyp1, hyp2].map fun h => near (boundarySimilarity rt {}
      (((dictGet stargazer.items "stargazer".toList).bind (dictGet · c.toList)).getD h) h)
      (match c, decide (h = hyp1) with
        | "3", false => 0.5 | "3", true => 0.45
        | "6", false => 0.3888888888888889 | "6", true => 0.5833333333333333
        | "1", false => 0.3888888888888889 | "1", true => 0.5714285714285714
        | "7", false => 0.3181818181818182 | "7", true => 0.5
        | "5", false => 0.375 | "5", true => 0.4166666666666667
        | "2", false => 0.3333333333333333 | "2", true => 0.42857142857142855
        | "4", false => 0.36363636363636365 | _, _ => 0.4444444444444444)) =
    List.replicate 7 [true, true] := by decide +kernel

end SegEval.Tests
