import Verif.Model.Compute

/-!
# Model of `segeval/agreement/*.py`
-/

namespace SegEval

/-- What the agreement functions receive: a `Dataset`, or a plain dict of dicts
(segeval/agreement/__init__.py:23-30, 148). -/
inductive AgrData
  | dataset (d : Dataset)
  | dict (items : Items)

/-- The codings of the argument (segeval/agreement/__init__.py:152-154). -/
def AgrData.items : AgrData → Items
  | .dataset d => d.items
  | .dict i => i

/-- segeval/data/__init__.py:102-109 `get_coders`. -/
def getCoders : AgrData → Finset Name
  | .dataset d => d.coders
  | .dict items =>
    items.foldl (fun acc it => it.2.foldl (fun acc c => insert c.1 acc) acc) ∅

/-- segeval/agreement/__init__.py:23-30: the format in force (a `Dataset` carries its own). -/
def agrFormat (kwFormat : BoundaryFormat) : AgrData → BoundaryFormat
  | .dataset d => d.boundaryFormat
  | .dict _ => kwFormat

/-- `fnc_compare(...)[0:2]` under `return_parts=True` (segeval/agreement/__init__.py:156-157). -/
abbrev Compare := BoundaryFormat → Seg → Seg → Py (PyNum × PyNum)

/-- segeval/agreement/__init__.py:18,156-157 the default comparison: the first two parts of
`boundary_similarity`, called through the argument handling of util/__init__.py (which rejects
empty segmentations). -/
def compareB (rt : Runtime) (nT : ℤ) (w : Weights) : Compare := fun fmt a b =>
  if a.truthy && b.truthy then
    match boundarySimilarity rt ⟨fmt, false, true, nT, w⟩ a b with
    | .error e => .error e
    | .ok (.bparts n d _) => .ok (n, d)
    | .ok (.parts n d) => .ok (n, d)
    | .ok (.num _) => .error .typeError
  else .error .segmentationMetricError

/-- The other comparison the package offers, `fnc_compare=segmentation_similarity`
(docs/user/quickstart.rst:137-140, segeval/similarity/segmentation.py:12-46), likewise called
through the
argument handling of util/__init__.py. -/
def compareS (rt : Runtime) (nT : ℤ) (w : Weights) : Compare := fun fmt a b =>
  if a.truthy && b.truthy then
    match segmentationSimilarity rt ⟨fmt, false, true, nT, w⟩ a b with
    | .error e => .error e
    | .ok (.bparts n d _) => .ok (n, d)
    | .ok (.parts n d) => .ok (n, d)
    | .ok (.num _) => .error .typeError
  else .error .segmentationMetricError

/-- segeval/agreement/__init__.py:33-57 `__potential_boundaries__`. -/
def potentialBoundaries (fmt : BoundaryFormat) (a b : Seg) : Py ℤ :=
  match toBStrings fmt a b with
  | .error e => .error e
  | .ok (sa, sb) => .ok ((sa.length : ℤ) * ((identifyTypes sa sb).card : ℤ))

/-- segeval/agreement/__init__.py:60-77 `__boundaries__`. -/
def boundariesOf (fmt : BoundaryFormat) (s : Seg) : Py ℤ :=
  match toBString fmt s with
  | .error e => .error e
  | .ok bs => .ok ((bs.map (fun p => (p.card : ℤ))).sum)

/-- The four parts returned by `__actual_agreement_linear__` (segeval/agreement/__init__.py:173). -/
structure AgrParts where
  numerators : List PyNum := []
  denominators : List PyNum := []
  pbs : List ℤ := []
  codersBoundaries : List (Name × List (ℤ × ℤ)) := []

/-- `coders_boundaries[coder].append([boundaries, pbs])` after creating the entry
(segeval/agreement/__init__.py:164-171). -/
def pushBoundaries (d : List (Name × List (ℤ × ℤ))) (coder : Name) (x : ℤ × ℤ) :
    List (Name × List (ℤ × ℤ)) :=
  dictSet d coder (((dictGet d coder).getD []) ++ [x])

/-- Create an empty entry if absent (segeval/agreement/__init__.py:165-168). -/
def ensureCoder (d : List (Name × List (ℤ × ℤ))) (coder : Name) : List (Name × List (ℤ × ℤ)) :=
  match dictGet d coder with
  | some _ => d
  | none => dictSet d coder []

/-- segeval/agreement/__init__.py:153-171 the innermost loop body for coders `m`, `n` and one item.
-/
def agreeStep (cmp : Compare) (fmt : BoundaryFormat) (m n : Name) (acc : AgrParts)
    (item : Name × Codings) : Py AgrParts :=
  match dictGet item.2 m with
  | none => .error .keyError
  | some sa =>
    match dictGet item.2 n with
    | none => .error .keyError
    | some sb =>
      match cmp fmt sa sb with
      | .error e => .error e
      | .ok (num, den) =>
        match potentialBoundaries fmt sa sb with
        | .error e => .error e
        | .ok pbs =>
          match boundariesOf fmt sa with
          | .error e => .error e
          | .ok ba =>
            match boundariesOf fmt sb with
            | .error e => .error e
            | .ok bb =>
              let cb := ensureCoder (ensureCoder acc.codersBoundaries m) n
              .ok { numerators := acc.numerators ++ [num]
                    denominators := acc.denominators ++ [den]
                    pbs := acc.pbs ++ [pbs]
                    codersBoundaries := pushBoundaries (pushBoundaries cb m (ba, pbs)) n (bb, pbs) }

/-- segeval/agreement/__init__.py:142-171 all parts, for a given enumeration of the coder set. -/
def agreementParts (cmp : Compare) (fmt : BoundaryFormat) (coders : List Name) (items : Items) :
    Py AgrParts :=
  forLoop (combinations2 coders) {} (fun acc mn =>
    forLoop items acc (agreeStep cmp fmt mn.1 mn.2))

/-- segeval/agreement/__init__.py:175 `sum(all_numerators) / sum(all_denominators)`. -/
def actualOfParts (p : AgrParts) : Py PyNum :=
  match pySum p.numerators with
  | .error e => .error e
  | .ok n =>
    match pySum p.denominators with
    | .error e => .error e
    | .ok d => n.truediv d

/-- segeval/agreement/__init__.py:80-180 `actual_agreement_linear`. -/
def actualAgreement (o : ClassOrder Name) (cmp : Compare) (kwFormat : BoundaryFormat)
    (data : AgrData) : Py PyNum :=
  match agreementParts cmp (agrFormat kwFormat data) (o.order [] (getCoders data)) data.items with
  | .error e => .error e
  | .ok p => actualOfParts p

/-- segeval/agreement/pi.py:23 and segeval/agreement/kappa.py:26: do all items have the same number
of codings (and is there one)? -/
def equalCodings (items : Items) : Bool :=
  decide (((items.map (fun it => it.2.length)).foldl (fun s x => insert x s) (∅ : Finset ℕ)).card = 1)

/-- segeval/agreement/pi.py:29 and segeval/agreement/kappa.py:32 `Decimal(sum(all_numerators)) /
sum(all_denominators)`. -/
def decimalActual (p : AgrParts) : Py PyNum :=
  match pySum p.numerators with
  | .error e => .error e
  | .ok n =>
    match pySum p.denominators with
    | .error e => .error e
    | .ok d => n.toDecimal.truediv d

/-- Divide each `Decimal(x)` by `y` (segeval/agreement/pi.py:32-36). -/
def ratios (l : List (ℤ × ℤ)) : Py (List PyNum) :=
  forLoop l [] (fun acc p =>
    match (PyNum.dec p.1).truediv (.int p.2) with
    | .error e => .error e
    | .ok x => .ok (acc ++ [x]))

/-- segeval/agreement/pi.py:38, segeval/agreement/kappa.py:48 `Decimal(sum(l)) / len(l)`. -/
def decimalMean (l : List PyNum) : Py PyNum :=
  match pySum l with
  | .error e => .error e
  | .ok s => s.toDecimal.truediv (.int l.length)

/-- segeval/agreement/pi.py:30-39 expected agreement of Fleiss' pi. -/
def piExpected (cb : List (Name × List (ℤ × ℤ))) : Py PyNum :=
  match ratios (cb.flatMap Prod.snd) with
  | .error e => .error e
  | .ok ps =>
    match decimalMean ps with
    | .error e => .error e
    | .ok p => p.mul p

/-- segeval/agreement/pi.py:41, segeval/agreement/kappa.py:51 `(A_a - A_e) / (Decimal('1') - A_e)`.
-/
def chanceCorrect (aa ae : PyNum) : Py PyNum :=
  match aa.sub ae with
  | .error e => .error e
  | .ok x =>
    match (PyNum.dec 1).sub ae with
    | .error e => .error e
    | .ok y => x.truediv y

/-- What `fleiss_pi_linear`, `fleiss_kappa_linear` and the bias return
(segeval/agreement/pi.py:43-46, segeval/agreement/kappa.py:53-56, segeval/agreement/bias.py:25-28).
-/
inductive AgrOut
  | value (x : PyNum)
  | parts (x y : PyNum)
  deriving DecidableEq

/-- segeval/agreement/pi.py:40-46, segeval/agreement/kappa.py:50-56: the coefficient is computed
before the parts are returned. -/
def finishAgreement (returnParts : Bool) (aa ae : PyNum) : Py AgrOut :=
  match chanceCorrect aa ae with
  | .error e => .error e
  | .ok x => if returnParts then .ok (.parts aa ae) else .ok (.value x)

/-- segeval/agreement/pi.py:11-56 `fleiss_pi_linear`. -/
def fleissPi (o : ClassOrder Name) (cmp : Compare) (kwFormat : BoundaryFormat)
    (returnParts : Bool) (data : AgrData) : Py AgrOut :=
  if equalCodings data.items = false then .error .genericException
  else
    match agreementParts cmp (agrFormat kwFormat data) (o.order [] (getCoders data)) data.items with
    | .error e => .error e
    | .ok p =>
      match decimalActual p with
      | .error e => .error e
      | .ok aa =>
        match piExpected p.codersBoundaries with
        | .error e => .error e
        | .ok ae => finishAgreement returnParts aa ae

/-- segeval/agreement/kappa.py:38-47 the product of the two coders' boundary rates. -/
def rateProduct (m n : List (ℤ × ℤ)) : Py PyNum :=
  match (PyNum.dec ((m.map Prod.fst).sum)).truediv (.int ((m.map Prod.snd).sum)) with
  | .error e => .error e
  | .ok x =>
    match (PyNum.dec ((n.map Prod.fst).sum)).truediv (.int ((n.map Prod.snd).sum)) with
    | .error e => .error e
    | .ok y => x.mul y

/-- segeval/agreement/kappa.py:33-49 expected agreement of Fleiss' kappa. -/
def kappaExpected (cb : List (Name × List (ℤ × ℤ))) : Py PyNum :=
  match forLoop (combinations2 cb) [] (fun acc mn =>
    match rateProduct mn.1.2 mn.2.2 with
    | .error e => .error e
    | .ok x => .ok (acc ++ [x])) with
  | .error e => .error e
  | .ok ps => decimalMean ps

/-- segeval/agreement/kappa.py:11-65 `fleiss_kappa_linear`. -/
def fleissKappa (o : ClassOrder Name) (cmp : Compare) (kwFormat : BoundaryFormat)
    (returnParts : Bool) (data : AgrData) : Py AgrOut :=
  if (data.items.filter (fun it => decide (it.2.length < 2))).length > 0 then
    .error .genericException
  else if equalCodings data.items = false then .error .genericException
  else
    match agreementParts cmp (agrFormat kwFormat data) (o.order [] (getCoders data)) data.items with
    | .error e => .error e
    | .ok p =>
      match decimalActual p with
      | .error e => .error e
      | .ok aa =>
        match kappaExpected p.codersBoundaries with
        | .error e => .error e
        | .ok ae => finishAgreement returnParts aa ae

/-- segeval/agreement/bias.py:12-35 `artstein_poesio_bias_linear`. -/
def artsteinPoesioBias (o : ClassOrder Name) (cmp : Compare) (kwFormat : BoundaryFormat)
    (returnParts : Bool) (data : AgrData) : Py AgrOut :=
  match fleissPi o cmp kwFormat true data with
  | .error e => .error e
  | .ok (.value _) => .error .typeError
  | .ok (.parts _ piE) =>
    match fleissKappa o cmp kwFormat true data with
    | .error e => .error e
    | .ok (.value _) => .error .typeError
    | .ok (.parts _ kappaE) =>
      match piE.sub kappaE with
      | .error e => .error e
      | .ok bias => if returnParts then .ok (.parts piE kappaE) else .ok (.value bias)

end SegEval
