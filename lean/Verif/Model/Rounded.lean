import Verif.Model.Rounding
import Verif.Model.Agreement

/-!
# The metrics with rounded arithmetic

The same code as in `Model/{Weight,Similarity,Window,Compute,ML,Agreement}.lean`, with every
arithmetic operation on `Decimal` and `float` rounded by `ρ`.  `Lemmas/Rounded.lean` proves that
with `Rounding.exact` each definition is the one of the base model.
-/

namespace SegEval

/-! ## Weights and similarities -/

/-- segeval/similarity/weight.py:40-47 `weight_t_scale`: the numerator is an int, one division is
rounded. -/
def scalePairsR (ρ : Rounding) (pairs : List (ℤ × ℤ)) (maxN : ℤ) : Py PyNum :=
  PyNum.truedivR ρ (.dec (spanSum pairs)) (.int maxN)

/-- segeval/similarity/__init__.py:21 the default weights. -/
def Weights.defaultR (ρ : Rounding) : Weights where
  a := weightA
  s substitutions maxS minS :=
    scalePairsR ρ (substitutions.map (fun s => (s.typeA, s.typeB))) (maxS - minS + 1)
  t transpositions maxN :=
    scalePairsR ρ (transpositions.map (fun t => ((t.start : ℤ), (t.stop : ℤ)))) maxN

/-- segeval/similarity/__init__.py:62-68 the weighted number of edits. -/
def countEditsR (ρ : Rounding) (w : Weights) (nT : ℤ) (types : Finset ℤ) (e : Edits) : Py PyNum :=
  match w.a e.additions with
  | .error err => .error err
  | .ok ca =>
    match pyMax types with
    | .error err => .error err
    | .ok mx =>
      match pyMin types with
      | .error err => .error err
      | .ok mn =>
        match w.s e.substitutions mx mn with
        | .error err => .error err
        | .ok cs =>
          match w.t e.transpositions nT with
          | .error err => .error err
          | .ok ct =>
            match PyNum.addR ρ ca cs with
            | .error err => .error err
            | .ok cas => PyNum.addR ρ cas ct

/-- segeval/similarity/__init__.py:49-80 `__boundary_statistics__` after conversion. -/
def statisticsOfStringsR (ρ : Rounding) (rt : Runtime) (w : Weights) (nT : ℤ) (a b : BString) :
    Py Statistics :=
  if a.length ≠ b.length then .error .segmentationMetricError
  else
    let types := identifyTypes a b
    match boundaryEditDistance rt a b nT with
    | .error e => .error e
    | .ok edits =>
      match countEditsR ρ w nT types edits with
      | .error e => .error e
      | .ok ce =>
        .ok { countEdits := ce
              edits := edits
              fullMisses := missesFrom rt 0 (a.zip b)
              boundariesAll := boundariesAll (a.zip b)
              matches' := matchesFrom rt 0 (a.zip b)
              pbs := (b.length : ℤ) * (types.card : ℤ)
              boundaryTypes := types }

/-- segeval/similarity/__init__.py:25-80 `__boundary_statistics__`. -/
def boundaryStatisticsR (ρ : Rounding) (rt : Runtime) (fmt : BoundaryFormat) (nT : ℤ) (w : Weights)
    (a b : Seg) : Py Statistics :=
  match toBStrings fmt a b with
  | .error e => .error e
  | .ok (sa, sb) => statisticsOfStringsR ρ rt w nT sa sb

/-- `Decimal('1') - value` when `one_minus` is set (segeval/similarity/boundary.py:33-36,
segeval/similarity/segmentation.py:34-37,
segeval/window/pk.py:59-63). -/
def applyOneMinusR (ρ : Rounding) (oneMinus : Bool) (value : PyNum) : Py MetricOut :=
  if oneMinus then
    match PyNum.subR ρ (.dec 1) value with
    | .ok x => .ok (.num x)
    | .error e => .error e
  else .ok (.num value)

/-- `numerator / denominator if denominator > 0 else 1` (segeval/similarity/boundary.py:32,
segeval/similarity/segmentation.py:33). -/
def ratioOrOneR (ρ : Rounding) (numerator : PyNum) (denominator : ℤ) : Py PyNum :=
  if 0 < denominator then PyNum.truedivR ρ numerator (.int denominator) else .ok (.int 1)

/-- segeval/similarity/boundary.py:12-36 `__boundary_similarity__`. -/
def boundarySimilarityR (ρ : Rounding) (rt : Runtime) (kw : SimKw) (a b : Seg) : Py MetricOut :=
  match boundaryStatisticsR ρ rt kw.boundaryFormat kw.nT kw.weight a b with
  | .error e => .error e
  | .ok st =>
    let countUnweighted : ℤ := (st.edits.additions.length : ℤ) +
      (st.edits.substitutions.length : ℤ) + (st.edits.transpositions.length : ℤ)
    let denominator : ℤ := countUnweighted + (st.matches'.length : ℤ)
    match PyNum.subR ρ (.int denominator) st.countEdits with
    | .error e => .error e
    | .ok numerator =>
      if kw.returnParts then .ok (.bparts numerator (.int denominator) st.edits)
      else
        match ratioOrOneR ρ numerator denominator with
        | .error e => .error e
        | .ok value => applyOneMinusR ρ kw.oneMinus value

/-- segeval/similarity/segmentation.py:12-37 `__segmentation_similarity__`. -/
def segmentationSimilarityR (ρ : Rounding) (rt : Runtime) (kw : SimKw) (a b : Seg) :
    Py MetricOut :=
  match boundaryStatisticsR ρ rt kw.boundaryFormat kw.nT kw.weight a b with
  | .error e => .error e
  | .ok st =>
    let pbs : ℤ := st.pbs * (st.boundaryTypes.card : ℤ)
    match PyNum.subR ρ (.int pbs) st.countEdits with
    | .error e => .error e
    | .ok numerator =>
      if kw.returnParts then .ok (.parts numerator (.int pbs))
      else
        match ratioOrOneR ρ numerator pbs with
        | .error e => .error e
        | .ok value => applyOneMinusR ρ kw.oneMinus value

/-! ## Window metrics -/

/-- segeval/window/windowdiff.py:41-139 `__window_diff__`. -/
def windowDiffR (ρ : Rounding) (kw : WinKw) (hypothesis reference : Seg) : Py MetricOut :=
  match positionsChecked kw.boundaryFormat hypothesis reference with
  | .error e => .error e
  | .ok (hyp, ref) =>
    match effectiveWindow kw ref.2 with
    | .error e => .error e
    | .ok w =>
      match createPairedWindow hyp ref w kw.lamprierFix with
      | .error e => .error e
      | .ok units =>
        match sumDifferences units w with
        | .error e => .error e
        | .ok sum =>
          let measurements : ℤ := units.length - w
          let n : ℤ := (convertPositionsToMasses ref.2).sum
          let denominator : ℤ := if kw.lamprierFix then measurements + 1 else n - w
          match PyNum.truedivR ρ (.dec sum) (.int denominator) with
          | .error e => .error e
          | .ok winDiff =>
            if ¬ (denominator = measurements ∨ kw.lamprierFix = true) then .error .assertionError
            else if ¬ winDiff.val ≤ 1 then .error .assertionError
            else if kw.oneMinus = false then
              if kw.returnParts then .ok (.parts (.int sum) (.int denominator))
              else .ok (.num winDiff)
            else
              match PyNum.subR ρ (.dec 1) winDiff with
              | .error e => .error e
              | .ok x => .ok (.num x)

/-- segeval/window/pk.py:17-63 `__pk__`. -/
def pkR (ρ : Rounding) (kw : WinKw) (hypothesis reference : Seg) : Py MetricOut :=
  match positionsChecked kw.boundaryFormat hypothesis reference with
  | .error e => .error e
  | .ok (hyp, ref) =>
    match effectiveWindow kw ref.2 with
    | .error e => .error e
    | .ok w =>
      match pkDifferences hyp.2 ref.2 w with
      | .error e => .error e
      | .ok sum =>
        let measurements : ℤ := (pyRange (ref.2.length - w)).length
        match (if 0 < measurements then PyNum.truedivR ρ (.dec sum) (.int measurements)
               else .ok (.int 0)) with
        | .error e => .error e
        | .ok value =>
          if kw.returnParts then .ok (.parts (.int sum) (.int measurements))
          else applyOneMinusR ρ kw.oneMinus value

/-! ## Summaries -/

/-- segeval/util/math.py:10-26 `mean`. -/
def pyMeanR (ρ : Rounding) (values : List PyNum) : Py PyNum :=
  match forLoop values (.dec 0) (PyNum.addR ρ) with
  | .error e => .error e
  | .ok s => if 0 < values.length then PyNum.truedivR ρ s (.int values.length) else .ok (.int 0)

/-- segeval/util/math.py:41-42 one step of the sum of squared deviations. -/
def squareStepR (ρ : Rounding) (mu acc v : PyNum) : Py PyNum :=
  match PyNum.subR ρ v mu with
  | .error e => .error e
  | .ok d => PyNum.addR ρ acc (d.sqR ρ)

/-- segeval/util/math.py:29-43 `var`. -/
def pyVarR (ρ : Rounding) (values : List PyNum) : Py PyNum :=
  match pyMeanR ρ values with
  | .error e => .error e
  | .ok mu =>
    match forLoop values (.dec 0) (squareStepR ρ mu) with
    | .error e => .error e
    | .ok total => PyNum.truedivR ρ total (.int values.length)

/-! ## Agreement -/

/-- segeval/agreement/__init__.py:18,156-157 the default comparison. -/
def compareBR (ρ : Rounding) (rt : Runtime) (nT : ℤ) (w : Weights) : Compare := fun fmt a b =>
  if a.truthy && b.truthy then
    match boundarySimilarityR ρ rt ⟨fmt, false, true, nT, w⟩ a b with
    | .error e => .error e
    | .ok (.bparts n d _) => .ok (n, d)
    | .ok (.parts n d) => .ok (n, d)
    | .ok (.num _) => .error .typeError
  else .error .segmentationMetricError

/-- segeval/agreement/__init__.py:175 `sum(all_numerators) / sum(all_denominators)`. -/
def actualOfPartsR (ρ : Rounding) (p : AgrParts) : Py PyNum :=
  match pySumR ρ p.numerators with
  | .error e => .error e
  | .ok n =>
    match pySumR ρ p.denominators with
    | .error e => .error e
    | .ok d => PyNum.truedivR ρ n d

/-- segeval/agreement/__init__.py:80-180 `actual_agreement_linear`. -/
def actualAgreementR (ρ : Rounding) (o : ClassOrder Name) (cmp : Compare)
    (kwFormat : BoundaryFormat) (data : AgrData) : Py PyNum :=
  match agreementParts cmp (agrFormat kwFormat data) (o.order [] (getCoders data)) data.items with
  | .error e => .error e
  | .ok p => actualOfPartsR ρ p

/-- segeval/agreement/pi.py:29 and segeval/agreement/kappa.py:32 `Decimal(sum(all_numerators)) /
sum(all_denominators)`. -/
def decimalActualR (ρ : Rounding) (p : AgrParts) : Py PyNum :=
  match pySumR ρ p.numerators with
  | .error e => .error e
  | .ok n =>
    match pySumR ρ p.denominators with
    | .error e => .error e
    | .ok d => PyNum.truedivR ρ n.toDecimal d

/-- segeval/agreement/pi.py:32-36 one ratio. -/
def ratioStepR (ρ : Rounding) (acc : List PyNum) (p : ℤ × ℤ) : Py (List PyNum) :=
  match PyNum.truedivR ρ (.dec p.1) (.int p.2) with
  | .error e => .error e
  | .ok x => .ok (acc ++ [x])

/-- Divide each `Decimal(x)` by `y` (segeval/agreement/pi.py:32-36). -/
def ratiosR (ρ : Rounding) (l : List (ℤ × ℤ)) : Py (List PyNum) := forLoop l [] (ratioStepR ρ)

/-- segeval/agreement/pi.py:38, segeval/agreement/kappa.py:48 `Decimal(sum(l)) / len(l)`. -/
def decimalMeanR (ρ : Rounding) (l : List PyNum) : Py PyNum :=
  match pySumR ρ l with
  | .error e => .error e
  | .ok s => PyNum.truedivR ρ s.toDecimal (.int l.length)

/-- segeval/agreement/pi.py:30-39 expected agreement of Fleiss' pi. -/
def piExpectedR (ρ : Rounding) (cb : List (Name × List (ℤ × ℤ))) : Py PyNum :=
  match ratiosR ρ (cb.flatMap Prod.snd) with
  | .error e => .error e
  | .ok ps =>
    match decimalMeanR ρ ps with
    | .error e => .error e
    | .ok p => .ok (p.sqR ρ)

/-- segeval/agreement/pi.py:41, segeval/agreement/kappa.py:51 `(A_a - A_e) / (Decimal('1') - A_e)`.
-/
def chanceCorrectR (ρ : Rounding) (aa ae : PyNum) : Py PyNum :=
  match PyNum.subR ρ aa ae with
  | .error e => .error e
  | .ok x =>
    match PyNum.subR ρ (.dec 1) ae with
    | .error e => .error e
    | .ok y => PyNum.truedivR ρ x y

/-- segeval/agreement/pi.py:40-46, segeval/agreement/kappa.py:50-56. -/
def finishAgreementR (ρ : Rounding) (returnParts : Bool) (aa ae : PyNum) : Py AgrOut :=
  match chanceCorrectR ρ aa ae with
  | .error e => .error e
  | .ok x => if returnParts then .ok (.parts aa ae) else .ok (.value x)

/-- segeval/agreement/pi.py:11-56 `fleiss_pi_linear`. -/
def fleissPiR (ρ : Rounding) (o : ClassOrder Name) (cmp : Compare) (kwFormat : BoundaryFormat)
    (returnParts : Bool) (data : AgrData) : Py AgrOut :=
  if equalCodings data.items = false then .error .genericException
  else
    match agreementParts cmp (agrFormat kwFormat data) (o.order [] (getCoders data)) data.items with
    | .error e => .error e
    | .ok p =>
      match decimalActualR ρ p with
      | .error e => .error e
      | .ok aa =>
        match piExpectedR ρ p.codersBoundaries with
        | .error e => .error e
        | .ok ae => finishAgreementR ρ returnParts aa ae

/-- segeval/agreement/kappa.py:38-47 the product of the two coders' boundary rates. -/
def rateProductR (ρ : Rounding) (m n : List (ℤ × ℤ)) : Py PyNum :=
  match PyNum.truedivR ρ (.dec ((m.map Prod.fst).sum)) (.int ((m.map Prod.snd).sum)) with
  | .error e => .error e
  | .ok x =>
    match PyNum.truedivR ρ (.dec ((n.map Prod.fst).sum)) (.int ((n.map Prod.snd).sum)) with
    | .error e => .error e
    | .ok y => PyNum.mulR ρ x y

/-- segeval/agreement/kappa.py:36-47 one pair of coders. -/
def productStepR (ρ : Rounding) (acc : List PyNum)
    (mn : (Name × List (ℤ × ℤ)) × (Name × List (ℤ × ℤ))) : Py (List PyNum) :=
  match rateProductR ρ mn.1.2 mn.2.2 with
  | .error e => .error e
  | .ok x => .ok (acc ++ [x])

/-- segeval/agreement/kappa.py:33-49 expected agreement of Fleiss' kappa. -/
def kappaExpectedR (ρ : Rounding) (cb : List (Name × List (ℤ × ℤ))) : Py PyNum :=
  match forLoop (combinations2 cb) [] (productStepR ρ) with
  | .error e => .error e
  | .ok ps => decimalMeanR ρ ps

/-- segeval/agreement/kappa.py:11-65 `fleiss_kappa_linear`. -/
def fleissKappaR (ρ : Rounding) (o : ClassOrder Name) (cmp : Compare) (kwFormat : BoundaryFormat)
    (returnParts : Bool) (data : AgrData) : Py AgrOut :=
  if (data.items.filter (fun it => decide (it.2.length < 2))).length > 0 then
    .error .genericException
  else if equalCodings data.items = false then .error .genericException
  else
    match agreementParts cmp (agrFormat kwFormat data) (o.order [] (getCoders data)) data.items with
    | .error e => .error e
    | .ok p =>
      match decimalActualR ρ p with
      | .error e => .error e
      | .ok aa =>
        match kappaExpectedR ρ p.codersBoundaries with
        | .error e => .error e
        | .ok ae => finishAgreementR ρ returnParts aa ae

/-- segeval/agreement/bias.py:12-35 `artstein_poesio_bias_linear`. -/
def artsteinPoesioBiasR (ρ : Rounding) (o : ClassOrder Name) (cmp : Compare)
    (kwFormat : BoundaryFormat) (returnParts : Bool) (data : AgrData) : Py AgrOut :=
  match fleissPiR ρ o cmp kwFormat true data with
  | .error e => .error e
  | .ok (.value _) => .error .typeError
  | .ok (.parts _ piE) =>
    match fleissKappaR ρ o cmp kwFormat true data with
    | .error e => .error e
    | .ok (.value _) => .error .typeError
    | .ok (.parts _ kappaE) =>
      match PyNum.subR ρ piE kappaE with
      | .error e => .error e
      | .ok bias => if returnParts then .ok (.parts piE kappaE) else .ok (.value bias)

end SegEval
