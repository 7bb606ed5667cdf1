import Verif.Model.Agreement

/-!
# Model of the keyword arguments

The other models take the keyword arguments of a metric as a record in which every field has a
value.  Here they are what the caller wrote: some of the keywords of the package, each with a value
of its documented type, and any other names.  Values of another type are outside the model.
-/

namespace SegEval

/-- A dict of keyword arguments (segeval/util/__init__.py:31-36, segeval/agreement/__init__.py:23-30).
Absent keywords are `none`; `others` are the names that no function of the package has. -/
structure Kwargs where
  boundaryFormat : Option BoundaryFormat := none
  permuted : Option Bool := none
  oneMinus : Option Bool := none
  returnParts : Option Bool := none
  nT : Option ℤ := none
  boundaryTypes : Option (Option (Finset ℤ)) := none
  weight : Option Weights := none
  windowSize : Option (Option ℤ) := none
  fncRound : Option (ℚ → ℤ) := none
  lamprierFix : Option Bool := none
  datasetB : Option Items := none
  others : List Name := []

/-- `defaults.update(kwargs)` on a copy of the defaults (segeval/util/__init__.py:35-36). -/
def Kwargs.update (d k : Kwargs) : Kwargs where
  boundaryFormat := k.boundaryFormat.or d.boundaryFormat
  permuted := k.permuted.or d.permuted
  oneMinus := k.oneMinus.or d.oneMinus
  returnParts := k.returnParts.or d.returnParts
  nT := k.nT.or d.nT
  boundaryTypes := k.boundaryTypes.or d.boundaryTypes
  weight := k.weight.or d.weight
  windowSize := k.windowSize.or d.windowSize
  fncRound := k.fncRound.or d.fncRound
  lamprierFix := k.lamprierFix.or d.lamprierFix
  datasetB := k.datasetB.or d.datasetB
  others := d.others ++ k.others

/-- segeval/metric.py:10-15 `METRIC_DEFAULTS`. -/
def metricDefaults : Kwargs :=
  { boundaryFormat := some .mass, permuted := some false, oneMinus := some false,
    returnParts := some false }

/-- segeval/similarity/__init__.py:17-22 `SIMILARITY_METRIC_DEFAULTS`. -/
def similarityDefaults : Kwargs :=
  metricDefaults.update { nT := some 2, boundaryTypes := some none, weight := some .default }

/-- segeval/window/__init__.py:14-19 `WINDOW_METRIC_DEFAULTS`. -/
def windowDefaults : Kwargs :=
  metricDefaults.update
    { windowSize := some none, fncRound := some roundHalfEven, permuted := some true }

/-- segeval/window/windowdiff.py:17-20 `WINDOWDIFF_METRIC_DEFAULTS`. -/
def windowDiffDefaults : Kwargs := windowDefaults.update { lamprierFix := some false }

/-- `del metric_kwargs['permuted']` (segeval/util/__init__.py:78, segeval/compute.py:31). -/
def Kwargs.delPermuted (k : Kwargs) : Py Kwargs :=
  if k.permuted.isSome then .ok { k with permuted := none } else .error .keyError

/-- `del metric_kwargs['return_parts']; del metric_kwargs['one_minus']`
(segeval/similarity/boundary.py:15-16, segeval/similarity/segmentation.py:18-19,
segeval/similarity/__init__.py:90-91). -/
def Kwargs.delParts (k : Kwargs) : Py Kwargs :=
  if k.returnParts.isSome && k.oneMinus.isSome then
    .ok { k with returnParts := none, oneMinus := none }
  else .error .keyError

/-- `__pk__(hypothesis, reference, **k)`: Python binds the parameters of segeval/window/pk.py:17-18.
A keyword that is not a parameter, or a parameter without value, is a `TypeError`. -/
def bindPk (k : Kwargs) : Py WinKw :=
  if k.permuted.isSome || k.nT.isSome || k.boundaryTypes.isSome || k.weight.isSome ||
      k.lamprierFix.isSome || k.datasetB.isSome || !k.others.isEmpty then .error .typeError
  else
    match k.windowSize, k.oneMinus, k.boundaryFormat, k.returnParts, k.fncRound with
    | some w, some om, some fmt, some rp, some r => .ok ⟨fmt, om, rp, w, r, false⟩
    | _, _, _, _, _ => .error .typeError

/-- `__window_diff__(hypothesis, reference, **k)`: the parameters of
segeval/window/windowdiff.py:41-43. -/
def bindWindowDiff (k : Kwargs) : Py WinKw :=
  if k.permuted.isSome || k.nT.isSome || k.boundaryTypes.isSome || k.weight.isSome ||
      k.datasetB.isSome || !k.others.isEmpty then .error .typeError
  else
    match k.windowSize, k.oneMinus, k.boundaryFormat, k.returnParts, k.fncRound, k.lamprierFix with
    | some w, some om, some fmt, some rp, some r, some fix => .ok ⟨fmt, om, rp, w, r, fix⟩
    | _, _, _, _, _, _ => .error .typeError

/-- `__boundary_statistics__(segs_a, segs_b, **k)`: the parameters of
segeval/similarity/__init__.py:25-26. -/
def bindStatistics (k : Kwargs) : Py (BoundaryFormat × ℤ × Weights) :=
  if k.permuted.isSome || k.oneMinus.isSome || k.returnParts.isSome || k.windowSize.isSome ||
      k.fncRound.isSome || k.lamprierFix.isSome || k.datasetB.isSome || !k.others.isEmpty then
    .error .typeError
  else
    match k.boundaryTypes, k.boundaryFormat, k.nT, k.weight with
    | some _, some fmt, some n, some w => .ok (fmt, n, w)
    | _, _, _, _ => .error .typeError

/-- `__pk__` with a dict of keywords (segeval/window/pk.py:17-63). -/
def runPk (k : Kwargs) (a b : Seg) : Py MetricOut :=
  match bindPk k with
  | .error e => .error e
  | .ok kw => pk kw a b

/-- `__window_diff__` with a dict of keywords (segeval/window/windowdiff.py:41-139). -/
def runWindowDiff (k : Kwargs) (a b : Seg) : Py MetricOut :=
  match bindWindowDiff k with
  | .error e => .error e
  | .ok kw => windowDiff kw a b

/-- `__boundary_statistics__` with a dict of keywords (segeval/similarity/__init__.py:25-80). -/
def runStatistics (rt : Runtime) (k : Kwargs) (a b : Seg) : Py Statistics :=
  match bindStatistics k with
  | .error e => .error e
  | .ok (fmt, n, w) => boundaryStatistics rt fmt n w a b

/-- The keywords of `__boundary_similarity__`, `__segmentation_similarity__` and
`__boundary_confusion_matrix__`, of which all but two are handed to `__boundary_statistics__`
(segeval/similarity/boundary.py:14-21, segeval/similarity/segmentation.py:17-24,
segeval/similarity/__init__.py:89-96). -/
def bindSimilarity (k : Kwargs) : Py SimKw :=
  match k.delParts with
  | .error e => .error e
  | .ok k' =>
    match bindStatistics k' with
    | .error e => .error e
    | .ok (fmt, n, w) =>
      match k.oneMinus, k.returnParts with
      | some om, some rp => .ok ⟨fmt, om, rp, n, w⟩
      | _, _ => .error .keyError

/-- `__boundary_similarity__` with a dict of keywords (segeval/similarity/boundary.py:12-36). -/
def runB (rt : Runtime) (k : Kwargs) (a b : Seg) : Py MetricOut :=
  match bindSimilarity k with
  | .error e => .error e
  | .ok kw => boundarySimilarity rt kw a b

/-- `__segmentation_similarity__` with a dict of keywords
(segeval/similarity/segmentation.py:12-37). -/
def runS (rt : Runtime) (k : Kwargs) (a b : Seg) : Py MetricOut :=
  match bindSimilarity k with
  | .error e => .error e
  | .ok kw => segmentationSimilarity rt kw a b

/-- `__boundary_confusion_matrix__` with a dict of keywords
(segeval/similarity/__init__.py:83-123). -/
def runConfusion (rt : Runtime) (k : Kwargs) (a b : Seg) : Py (CM BLabel) :=
  match bindSimilarity k with
  | .error e => .error e
  | .ok kw => boundaryConfusionMatrix rt kw a b

/-- segeval/util/__init__.py:31-83 `__fnc_metric__` with two segmentations as positional arguments. -/
def metricOfPair {R : Type _} (run : Kwargs → Seg → Seg → Py R) (defaults k : Kwargs) (a b : Seg) :
    Py R :=
  if a.truthy && b.truthy then
    match (defaults.update k).delPermuted with
    | .error e => .error e
    | .ok k' => run k' a b
  else .error .segmentationMetricError

/-- segeval/util/__init__.py:31-83 `__fnc_metric__` with one `Dataset` as positional argument.
`compute_pairwise_values` has parameters of its own: `fnc_metric` and `dataset_a` are given twice if
they are keywords too, and `dataset_b` names a second dataset (segeval/compute.py:11, 24-31). -/
def metricOfDataset {R : Type _} (o : ClassOrder Name) (run : Kwargs → Seg → Seg → Py R)
    (defaults k : Kwargs) (d : Dataset) : Py (List (Name × R)) :=
  if d.items.isEmpty then .error .segmentationMetricError
  else
    let k1 := { defaults.update k with boundaryFormat := some d.boundaryFormat }
    if k1.others.contains "fnc_metric".toList || k1.others.contains "dataset_a".toList then
      .error .typeError
    else
      match k1.permuted with
      | none => .error .keyError
      | some permuted =>
        match k1.delPermuted with
        | .error e => .error e
        | .ok k2 =>
          computePairwiseValues o (run { k2 with datasetB := none }) permuted d.items k1.datasetB

/-- segeval/window/pk.py:66-68 `pk(a, b, **k)`. -/
def pkPair (k : Kwargs) (a b : Seg) : Py MetricOut := metricOfPair runPk windowDefaults k a b

/-- segeval/window/windowdiff.py:142-145 `window_diff(a, b, **k)`. -/
def windowDiffPair (k : Kwargs) (a b : Seg) : Py MetricOut :=
  metricOfPair runWindowDiff windowDiffDefaults k a b

/-- segeval/similarity/boundary.py:39-45 `boundary_similarity(a, b, **k)`. -/
def boundarySimilarityPair (rt : Runtime) (k : Kwargs) (a b : Seg) : Py MetricOut :=
  metricOfPair (runB rt) similarityDefaults k a b

/-- segeval/similarity/segmentation.py:40-45 `segmentation_similarity(a, b, **k)`. -/
def segmentationSimilarityPair (rt : Runtime) (k : Kwargs) (a b : Seg) : Py MetricOut :=
  metricOfPair (runS rt) similarityDefaults k a b

/-- segeval/similarity/__init__.py:126-129 `boundary_confusion_matrix(a, b, **k)`. -/
def boundaryConfusionMatrixPair (rt : Runtime) (k : Kwargs) (a b : Seg) : Py (CM BLabel) :=
  metricOfPair (runConfusion rt) similarityDefaults k a b

/-- segeval/similarity/__init__.py:132-138 `boundary_statistics(a, b, **k)`. -/
def boundaryStatisticsPair (rt : Runtime) (k : Kwargs) (a b : Seg) : Py Statistics :=
  match similarityDefaults.delParts with
  | .error e => .error e
  | .ok defaults => metricOfPair (runStatistics rt) defaults k a b

/-! ## Agreement -/

/-- A function given as `fnc_compare` (segeval/agreement/__init__.py:139, 156-157): called with two
segmentations and a dict of keywords. -/
abbrev FncCompare := Kwargs → Seg → Seg → Py MetricOut

/-- `[0:2]` and unpacking (segeval/agreement/__init__.py:156-157): a number cannot be sliced. -/
def firstTwo : MetricOut → Py (PyNum × PyNum)
  | .bparts n d _ => .ok (n, d)
  | .parts n d => .ok (n, d)
  | .num _ => .error .typeError

/-- The keywords of an agreement coefficient (segeval/agreement/__init__.py:16-26). -/
structure AgrKwargs where
  kw : Kwargs := {}
  fncCompare : Option FncCompare := none

/-- segeval/agreement/__init__.py:16-30 `__fnc_metric__`: the keywords in force.  A `Dataset` has both
attributes; the value of `boundary_types` is never read again (segeval/similarity/__init__.py:55), so
here it is `None`. -/
def agreementKwargs (k : Kwargs) (data : AgrData) : Kwargs :=
  let m := (similarityDefaults.update { returnParts := some false }).update k
  match data with
  | .dataset d => { m with boundaryTypes := some none, boundaryFormat := some d.boundaryFormat }
  | .dict _ => m

/-- segeval/agreement/__init__.py:135-139, 156-157 the comparison that is made: the keywords of the
coefficient are handed on, except that the parts are asked for. -/
def comparisonMade (f : FncCompare) (m : Kwargs) : Compare := fun _ a b =>
  match f { m with returnParts := some true } a b with
  | .error e => .error e
  | .ok out => firstTwo out

/-- The comparison in force (segeval/agreement/__init__.py:17-18, 24-25, 139). -/
def AgrKwargs.comparison (rt : Runtime) (k : AgrKwargs) : FncCompare :=
  k.fncCompare.getD (boundarySimilarityPair rt)

/-- What `actual_agreement_linear` returns (segeval/agreement/__init__.py:172-175). -/
inductive ActualOut
  | value (x : PyNum)
  | parts (p : AgrParts)

/-- segeval/agreement/__init__.py:80-180 `actual_agreement_linear(dataset, **k)`. -/
def actualAgreementCall (rt : Runtime) (o : ClassOrder Name) (k : AgrKwargs) (data : AgrData) :
    Py ActualOut :=
  let m := agreementKwargs k.kw data
  match m.boundaryFormat, m.returnParts with
  | some fmt, some rp =>
    match agreementParts (comparisonMade (k.comparison rt) m) fmt (o.order [] (getCoders data))
        data.items with
    | .error e => .error e
    | .ok p =>
      if rp then .ok (.parts p)
      else
        match actualOfParts p with
        | .error e => .error e
        | .ok x => .ok (.value x)
  | _, _ => .error .keyError

/-- A coefficient that reads `boundary_format` and `return_parts` from its keywords
(segeval/agreement/__init__.py:34, 61, segeval/agreement/pi.py:18-21, segeval/agreement/kappa.py:17-20,
segeval/agreement/bias.py:16-19). -/
def coefficientCall (rt : Runtime)
    (coefficient : Compare → BoundaryFormat → Bool → AgrData → Py AgrOut) (k : AgrKwargs)
    (data : AgrData) : Py AgrOut :=
  let m := agreementKwargs k.kw data
  match m.boundaryFormat, m.returnParts with
  | some fmt, some rp => coefficient (comparisonMade (k.comparison rt) m) fmt rp data
  | _, _ => .error .keyError

/-- segeval/agreement/pi.py:49-56 `fleiss_pi_linear(dataset, **k)`. -/
def fleissPiCall (rt : Runtime) (o : ClassOrder Name) (k : AgrKwargs) (data : AgrData) : Py AgrOut :=
  coefficientCall rt (fleissPi o) k data

/-- segeval/agreement/kappa.py:59-65 `fleiss_kappa_linear(dataset, **k)`. -/
def fleissKappaCall (rt : Runtime) (o : ClassOrder Name) (k : AgrKwargs) (data : AgrData) :
    Py AgrOut :=
  coefficientCall rt (fleissKappa o) k data

/-- segeval/agreement/bias.py:31-35 `artstein_poesio_bias_linear(dataset, **k)`. -/
def biasCall (rt : Runtime) (o : ClassOrder Name) (k : AgrKwargs) (data : AgrData) : Py AgrOut :=
  coefficientCall rt (artsteinPoesioBias o) k data

end SegEval
