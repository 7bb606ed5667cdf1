import Verif.Model.Similarity

/-!
# Model of `segeval/window/*.py`
-/

namespace SegEval

/-- The argument of `compute_window_size`: a segmentation (any iterable of ints), a string, a
dict (with values in order), or a value that is neither (e.g. a number)
(segeval/window/__init__.py:32-47). -/
inductive MassTree
  | leaf (masses : List ℤ)
  | str (s : List Char)
  | node (children : List MassTree)
  | bad

mutual
/-- segeval/window/__init__.py:32-47 `__list_coder_masses__`. -/
def listCoderMasses : MassTree → Py (List ℤ)
  | .leaf ms => .ok ms
  | .str _ => .error .segmentationMetricError
  | .node cs => listCoderMassesAll cs
  | .bad => .error .segmentationMetricError
/-- segeval/window/__init__.py:40-42 the loop over the values of a dict. -/
def listCoderMassesAll : List MassTree → Py (List ℤ)
  | [] => .ok []
  | c :: cs =>
    match listCoderMasses c with
    | .error e => .error e
    | .ok ms =>
      match listCoderMassesAll cs with
      | .error e => .error e
      | .ok rest => .ok (ms ++ rest)
end

/-- segeval/util/math.py:10-26 `mean` on `Decimal`s (0 for no values). -/
def meanQ (values : List ℚ) : ℚ := if 0 < values.length then values.sum / values.length else 0

/-- segeval/window/__init__.py:53-57 from the collected masses to the window size; `fncRound` stands
for
`int(fnc_round(.))`. -/
def windowSizeOfMasses (fncRound : ℚ → ℤ) (masses : List ℤ) : ℤ :=
  let windowSize := fncRound (meanQ (masses.map (fun m : ℤ => (m : ℚ))) / 2)
  if 1 < windowSize then windowSize else 2

/-- `convert_positions_to_masses` applied to any iterable (segeval/window/__init__.py:48-49): run
lengths
of a label sequence or string; on a dict it iterates over its distinct keys. -/
def treePositionsToMasses : MassTree → Py (List ℤ)
  | .leaf ls => .ok ((runs ls).map Int.ofNat)
  | .str s => .ok ((runs (s.map (fun c => (c.toNat : ℤ)))).map Int.ofNat)
  | .node cs => .ok (cs.map (fun _ => 1))
  | .bad => .error .typeError

/-- segeval/window/__init__.py:22-57 `__compute_window_size__` and 60-67 `compute_window_size`. -/
def computeWindowSize (fncRound : ℚ → ℤ) (fmt : BoundaryFormat) (reference : MassTree) : Py ℤ :=
  match (if fmt = .position then treePositionsToMasses reference else listCoderMasses reference) with
  | .error e => .error e
  | .ok masses => .ok (windowSizeOfMasses fncRound masses)

/-- Python 3 `round`: to the nearest integer, ties to even (segeval/window/__init__.py:17, 56). -/
def roundHalfEven (q : ℚ) : ℤ :=
  let f := q.floor
  let r := q - f
  if r < 1 / 2 then f else if 1 / 2 < r then f + 1 else if f % 2 = 0 then f else f + 1

/-- Python 2 `round` on a non-negative number: ties away from zero (segeval/window/__init__.py:17,
56). -/
def roundHalfUp (q : ℚ) : ℤ := (q + 1 / 2).floor

/-- The keyword arguments of the window metrics (segeval/window/__init__.py:14-19,
segeval/window/windowdiff.py:17-20). -/
structure WinKw where
  boundaryFormat : BoundaryFormat := .mass
  oneMinus : Bool := false
  returnParts : Bool := false
  windowSize : Option ℤ := none
  fncRound : ℚ → ℤ := roundHalfEven
  lamprierFix : Bool := false

/-- segeval/window/windowdiff.py:76-86 and segeval/window/pk.py:20-30 conversion to positions; the
flag says whether the Python
value is a tuple. -/
def toPositions (fmt : BoundaryFormat) (seg : Seg) : Py (Bool × List Obj) :=
  match fmt, seg with
  | .nltk, .str s => .ok (true, convertMassesToPositions (convertNltkToMasses s))
  | .mass, .ints _ l => .ok (true, convertMassesToPositions (l.map Obj.val))
  | .position, .ints tup l => .ok (tup, l)
  | .other, _ => .error .segmentationMetricError
  | .sets, _ => .error .segmentationMetricError
  | _, _ => .error .unmodelled

/-- segeval/window/windowdiff.py:76-92 / segeval/window/pk.py:20-34 conversion of both arguments and
the length check. -/
def positionsChecked (fmt : BoundaryFormat) (hyp ref : Seg) :
    Py ((Bool × List Obj) × (Bool × List Obj)) :=
  match toPositions fmt ref with
  | .error e => .error e
  | .ok r =>
    match toPositions fmt hyp with
    | .error e => .error e
    | .ok h => if r.2.length ≠ h.2.length then .error .segmentationMetricError else .ok (h, r)

/-- segeval/window/windowdiff.py:93-96 / segeval/window/pk.py:35-38 the window size in use. -/
def effectiveWindow (kw : WinKw) (ref : List Obj) : Py ℤ :=
  match kw.windowSize with
  | some w => .ok w
  | none => computeWindowSize kw.fncRound .position (.leaf (ref.map Obj.val))

/-- segeval/window/windowdiff.py:23-38 `__create_paired_window__`: pairs (reference unit, hypothesis
unit).
Adding a tuple and a list is a `TypeError`. -/
def createPairedWindow (hyp ref : Bool × List Obj) (w : ℤ) (fix : Bool) :
    Py (List (Obj × Obj)) :=
  if fix then
    let phantomSize : ℤ := if w ≤ 0 then 1 else w
    let phantom : List Obj := List.replicate phantomSize.toNat ⟨0, 0⟩
    if ref.1 && hyp.1 then
      .ok ((phantom ++ ref.2 ++ phantom).zip (phantom ++ hyp.2 ++ phantom))
    else .error .typeError
  else .ok (ref.2.zip hyp.2)

/-- segeval/window/windowdiff.py:112-119 the number of neighbouring units that are not the same
object. -/
def countChanges : List Obj → ℕ
  | x :: y :: rest => (if x.is y then 0 else 1) + countChanges (y :: rest)
  | _ => 0

/-- segeval/window/windowdiff.py:105-122 one window: is it counted as a difference? -/
def windowDiffers (units : List (Obj × Obj)) (w : ℤ) (i : ℕ) : Py Bool :=
  let window := pySlice units i (i + w + 1)
  if isInt window.length (w + 1) then
    let refBoundaries : ℕ := countChanges (window.map Prod.fst)
    let hypBoundaries : ℕ := countChanges (window.map Prod.snd)
    .ok (!(isInt refBoundaries hypBoundaries))
  else .error .assertionError

/-- segeval/window/windowdiff.py:104-122 one pass of the loop over windows. -/
def sumStep (units : List (Obj × Obj)) (w acc : ℤ) (i : ℕ) : Py ℤ :=
  match windowDiffers units w i with
  | .error e => .error e
  | .ok b => .ok (if b then acc + 1 else acc)

/-- segeval/window/windowdiff.py:103-122 the sum over all windows. -/
def sumDifferences (units : List (Obj × Obj)) (w : ℤ) : Py ℤ :=
  forLoop (pyRange (units.length - w)) 0 (sumStep units w)

/-- segeval/window/windowdiff.py:41-139 `__window_diff__`. -/
def windowDiff (kw : WinKw) (hypothesis reference : Seg) : Py MetricOut :=
  match positionsChecked kw.boundaryFormat hypothesis reference with
  | .error e => .error e
  | .ok (hyp, ref) =>
    match effectiveWindow kw ref.2 with
    | .error e => .error e
    | .ok w =>
      match createPairedWindow hyp ref w kw.lamprierFix with
      | .error e => .error e
      | .ok units =>
        match sumDifferences units w with
        | .error e => .error e
        | .ok sum =>
          let measurements : ℤ := units.length - w
          let n : ℤ := (convertPositionsToMasses ref.2).sum
          let denominator : ℤ := if kw.lamprierFix then measurements + 1 else n - w
          match (PyNum.dec sum).truediv (.int denominator) with
          | .error e => .error e
          | .ok winDiff =>
            if ¬ (denominator = measurements ∨ kw.lamprierFix = true) then .error .assertionError
            else if ¬ winDiff.val ≤ 1 then .error .assertionError
            else if kw.oneMinus = false then
              if kw.returnParts then .ok (.parts (.int sum) (.int denominator))
              else .ok (.num winDiff)
            else
              match (PyNum.dec 1).sub winDiff with
              | .error e => .error e
              | .ok x => .ok (.num x)

/-- segeval/window/pk.py:49-50 `window[0] is window[-1]`. -/
def endsAgree (window : List Obj) : Py Bool :=
  match pyGet window 0 with
  | .error e => .error e
  | .ok x =>
    match pyGet window (-1) with
    | .error e => .error e
    | .ok y => .ok (x.is y)

/-- segeval/window/pk.py:44-54 one probe. -/
def pkStep (hyp ref : List Obj) (w acc : ℤ) (i : ℕ) : Py ℤ :=
  match endsAgree (pySlice ref i (i + w + 1)) with
  | .error e => .error e
  | .ok agreeRef =>
    match endsAgree (pySlice hyp i (i + w + 1)) with
    | .error e => .error e
    | .ok agreeHyp => .ok (if agreeRef ≠ agreeHyp then acc + 1 else acc)

/-- segeval/window/pk.py:43-54 the sum over all probes. -/
def pkDifferences (hyp ref : List Obj) (w : ℤ) : Py ℤ :=
  forLoop (pyRange (ref.length - w)) 0 (pkStep hyp ref w)

/-- segeval/window/pk.py:17-63 `__pk__`. -/
def pk (kw : WinKw) (hypothesis reference : Seg) : Py MetricOut :=
  match positionsChecked kw.boundaryFormat hypothesis reference with
  | .error e => .error e
  | .ok (hyp, ref) =>
    match effectiveWindow kw ref.2 with
    | .error e => .error e
    | .ok w =>
      match pkDifferences hyp.2 ref.2 w with
      | .error e => .error e
      | .ok sum =>
        let measurements : ℤ := (pyRange (ref.2.length - w)).length
        match (if 0 < measurements then (PyNum.dec sum).truediv (.int measurements)
               else .ok (.int 0)) with
        | .error e => .error e
        | .ok value =>
          if kw.returnParts then .ok (.parts (.int sum) (.int measurements))
          else applyOneMinus kw.oneMinus value

end SegEval
