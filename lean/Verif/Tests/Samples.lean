import Verif.Tests.Vectors

/-!
# The repository's tests on the datasets of data/samples.py, evaluated in the model

These are tests of the model (closed computations checked by the kernel), not proofs of properties.
-/

namespace SegEval.Tests

open SegEval

/-- data/samples.py:12-30 -/
def g5 : Items :=
  [
   ("ch1".toList, [("an4".toList, masses [2, 8, 2, 1]),
     ("an1".toList, masses [11, 2]),
     ("an2".toList, masses [2, 1, 7, 2, 1]),
     ("an3".toList, masses [9, 4])]),
   ("ch11".toList, [("an4".toList, masses [10, 4, 3, 2, 1, 8, 3, 2, 6, 1, 2, 8, 10, 9, 4, 10, 4, 8, 4, 3, 5, 4]),
     ("an1".toList, masses [20, 22, 8, 11, 11, 11, 13, 11, 4]),
     ("an2".toList, masses [1, 7, 2, 4, 3, 3, 10, 1, 1, 5, 3, 2, 8, 3, 3, 3, 14, 4, 1, 1, 4, 4, 2, 7, 3, 2, 3, 3, 2, 1, 1]),
     ("an3".toList, masses [10, 10, 15, 11, 4, 10, 13, 5, 4, 23, 6])]),
   ("ch4".toList, [("an4".toList, masses [2, 9, 2, 5, 2, 19, 1, 6]),
     ("an1".toList, masses [17, 25, 4]),
     ("an2".toList, masses [1, 10, 2, 4, 1, 2, 3, 10, 6, 6, 1]),
     ("an3".toList, masses [12, 5, 29])]),
   ("ch3".toList, [("an4".toList, masses [2, 3, 4, 2, 5, 17, 4, 1]),
     ("an1".toList, masses [6, 5, 27]),
     ("an2".toList, masses [3, 8, 2, 3, 17, 2, 2, 1]),
     ("an3".toList, masses [3, 15, 15, 5])])]

/-- data/samples.py:57-81 -/
def g2 : Items :=
  [
   ("ch8".toList, [("an5".toList, masses [9, 7, 5, 12, 4, 2]),
     ("an6".toList, masses [3, 5, 4, 3, 6, 7, 5, 4, 2]),
     ("an7".toList, masses [2, 6, 2, 2, 2, 8, 8, 3, 4, 1, 1]),
     ("an10".toList, masses [2, 6, 4, 3, 6, 7, 5, 4, 1, 1]),
     ("an8".toList, masses [8, 4, 21, 4, 2]),
     ("an9".toList, masses [3, 5, 4, 10, 9, 6, 2])]),
   ("ch10".toList, [("an5".toList, masses [24, 6, 45, 6, 2]),
     ("an6".toList, masses [3, 3, 2, 3, 8, 1, 4, 6, 11, 22, 10, 6, 4]),
     ("an7".toList, masses [3, 3, 2, 16, 6, 45, 4, 1, 1, 1, 1]),
     ("an10".toList, masses [3, 5, 16, 5, 8, 2, 23, 13, 4, 4]),
     ("an8".toList, masses [8, 16, 6, 32, 11, 6, 1, 3]),
     ("an9".toList, masses [3, 3, 2, 11, 5, 6, 45, 4, 4])]),
   ("ch2".toList, [("an5".toList, masses [4, 7, 3, 1]),
     ("an6".toList, masses [4, 7, 3, 1]),
     ("an7".toList, masses [5, 6, 3, 1]),
     ("an10".toList, masses [5, 5, 4, 1]),
     ("an8".toList, masses [14, 1]),
     ("an9".toList, masses [14, 1])]),
   ("ch5".toList, [("an5".toList, masses [9, 4, 5, 9, 8, 7]),
     ("an6".toList, masses [2, 1, 6, 3, 2, 4, 17, 7]),
     ("an7".toList, masses [19, 15, 8]),
     ("an10".toList, masses [4, 10, 5, 1, 14, 4, 4]),
     ("an8".toList, masses [9, 4, 6, 16, 3, 4]),
     ("an9".toList, masses [13, 6, 15, 8])])]

/-- data/samples.py:113-122 -/
def hearst : Items :=
  [
   ("stargazer".toList, [("1".toList, masses [2, 3, 3, 1, 3, 6, 3]),
     ("2".toList, masses [2, 8, 2, 4, 2, 3]),
     ("3".toList, masses [2, 1, 2, 3, 1, 3, 1, 3, 2, 2, 1]),
     ("4".toList, masses [2, 1, 4, 1, 1, 3, 1, 4, 3, 1]),
     ("5".toList, masses [3, 2, 4, 3, 5, 4]),
     ("6".toList, masses [2, 3, 4, 2, 2, 5, 3]),
     ("7".toList, masses [2, 3, 2, 2, 3, 1, 3, 2, 3])])]

/-- data/samples.py:137-141 -/
def hypothesis : Items :=
  [
   ("stargazer".toList, [("h1".toList, masses [2, 6, 4, 2, 4, 3]),
     ("h2".toList, masses [2, 1, 1, 1, 5, 8, 2, 1])])]

/-- data/samples.py:157-173 -/
def complete : Items :=
  [
   ("item1".toList, [("an4".toList, masses [2, 8, 2, 1]),
     ("an1".toList, masses [2, 8, 2, 1]),
     ("an2".toList, masses [2, 8, 2, 1]),
     ("an3".toList, masses [2, 8, 2, 1])]),
   ("item2".toList, [("an4".toList, masses [20, 22, 8, 11, 11, 11, 13, 11, 4]),
     ("an1".toList, masses [20, 22, 8, 11, 11, 11, 13, 11, 4]),
     ("an2".toList, masses [20, 22, 8, 11, 11, 11, 13, 11, 4]),
     ("an3".toList, masses [20, 22, 8, 11, 11, 11, 13, 11, 4])]),
   ("item3".toList, [("an4".toList, masses [2, 9, 2, 5, 2, 19, 1, 6]),
     ("an1".toList, masses [2, 9, 2, 5, 2, 19, 1, 6]),
     ("an2".toList, masses [2, 9, 2, 5, 2, 19, 1, 6]),
     ("an3".toList, masses [2, 9, 2, 5, 2, 19, 1, 6])]),
   ("item4".toList, [("an4".toList, masses [6, 5, 27]),
     ("an1".toList, masses [6, 5, 27]),
     ("an2".toList, masses [6, 5, 27]),
     ("an3".toList, masses [6, 5, 27])])]

/-- The dataset with all coders of its items. -/
def whole (items : Items) : AgrData := .dict items

/-- One item of a dataset. -/
def oneItem (items : Items) (name : String) : AgrData :=
  .dict (items.filter (fun x => x.1 == name.toList))

/-- Is the result a number within 10^-26 of `q`? -/
def nearAA (r : Py AgrOut) (q : ℚ) : Bool :=
  match r with
  | .ok (.value x) => decide (|x.val - q| < 1 / 10 ^ 26)
  | _ => false

/-! ## agreement/test.py:23-80 -/

example : nearN (actualAgreement byName cmpB .mass (whole g5)) 0.2564575645756457564575645756 = true := by
  decide +kernel
example : nearN (actualAgreement byName cmpB .mass (oneItem g5 "ch1")) 0.25 = true := by decide +kernel
example : nearN (actualAgreement byName cmpB .mass (whole g2)) 0.4201773835920177383592017738 = true := by
  decide +kernel
example : nearN (actualAgreement byName cmpB .mass (oneItem g2 "ch2")) 0.5465116279069767441860465116 = true := by
  decide +kernel
example : nearN (actualAgreement byName cmpB .mass (whole complete)) 1 = true := by decide +kernel
example : nearN (actualAgreement byName cmpB .mass large) 0 = true := by decide +kernel

/-! ## agreement/pi_test.py:20-95 -/

example : nearAA (fleissPi byName cmpB .mass false (whole g5)) 0.2399575652197196472212284944 = true := by
  decide +kernel
example : nearAA (fleissPi byName cmpB .mass false (oneItem g5 "ch1")) 0.2226720647773279352226720649 = true := by
  decide +kernel
example : nearAA (fleissPi byName cmpB .mass false (whole g2)) 0.4083169765912929422042553174 = true := by
  decide +kernel
example : nearAA (fleissPi byName cmpB .mass false (oneItem g2 "ch2")) 0.5335548172757475083056478405 = true := by
  decide +kernel
example : nearAA (fleissPi byName cmpB .mass false data2) 0.1428571428571428571428571429 = true := by
  decide +kernel
example : nearAA (fleissPi byName cmpB .mass false (whole complete)) 1 = true := by decide +kernel
example : nearAA (fleissPi byName cmpB .mass false multi) 0.4666666666666666666666666667 = true := by
  decide +kernel

/-! ## agreement/kappa_test.py:21-95 -/

example : nearAA (fleissKappa byName cmpB .mass false (whole g5)) 0.2421099324579046442791865267 = true := by
  decide +kernel
example : nearAA (fleissKappa byName cmpB .mass false (oneItem g5 "ch1")) 0.2258064516129032258064516129 = true := by
  decide +kernel
example : nearAA (fleissKappa byName cmpB .mass false (whole g2)) 0.4106841873722731313872632664 = true := by
  decide +kernel
example : nearAA (fleissKappa byName cmpB .mass false (oneItem g2 "ch2")) 0.5339895791843801565560911374 = true := by
  decide +kernel
example : nearAA (fleissKappa byName cmpB .mass false large) 0 = true := by decide +kernel
example : nearAA (fleissKappa byName cmpB .mass false (whole complete)) 1 = true := by decide +kernel

/-! ## agreement/bias_test.py:21-100 -/

example : nearAA (artsteinPoesioBias byName cmpB .mass false (whole g5)) 0.00277829320319822615823397979 = true := by
  decide +kernel
example : nearAA (artsteinPoesioBias byName cmpB .mass false (oneItem g5 "ch1")) 0.00390625 = true := by
  decide +kernel
example : nearAA (artsteinPoesioBias byName cmpB .mass false (whole g2)) 0.00393636062003502686364542151 = true := by
  decide +kernel
example : nearAA (artsteinPoesioBias byName cmpB .mass false (oneItem g2 "ch2")) 0.00090702947845804988662131528 = true := by
  decide +kernel
example : nearAA (artsteinPoesioBias byName cmpB .mass false (whole complete)) 0.008099721956129627956849957112 = true := by
  decide +kernel

/-! ## Pairwise: window/windowdiff_test.py:349-437, window/pk_test.py:33-39,280-350 -/

/-- The numbers of a pairwise comparison. -/
def pairwise (permuted : Bool) (f : Seg → Seg → Py MetricOut) (items : Items) : List PyNum :=
  match computePairwiseValues byName f permuted items none with
  | .ok l => l.filterMap (fun x => match x.2 with | .num v => some v | _ => none)
  | .error _ => []

/-- Mean, variance and number as given, up to 10^-15, and the standard deviation and standard error
whose squares are the variance and its share. -/
def summary (l : List PyNum) (mean std var stderr : ℚ) (n : ℕ) : Bool :=
  match pyMean l, pyVar l with
  | .ok m, .ok v => decide (|m.val - mean| < 1 / 10 ^ 15 ∧ |v.val - var| < 1 / 10 ^ 15 ∧
      |v.val - std ^ 2| < 1 / 10 ^ 15 ∧ |v.val / n - stderr ^ 2| < 1 / 10 ^ 15 ∧ l.length = n)
  | _, _ => false

example : summary (pairwise true (windowDiff {}) g5) 0.42514977232721135 0.14960495739111837
    0.02238164327599834 0.02159361560546617 48 = true := by decide +kernel
example : summary (pairwise true (windowDiff { lamprierFix := true }) g5) 0.3981624488837195
    0.1499358110615409 0.022480747438682093 0.021641370219386377 48 = true := by decide +kernel
example : summary (pairwise true (windowDiff {}) g2) 0.3257163091933661553914718469
    0.1586420969856167116081811670 0.02516731493599381893573908435 0.01448197584815743151147537110
    120 = true := by decide +kernel
example : summary (pairwise true (windowDiff { lamprierFix := true }) g2) 0.2745037663246318112728760428
    0.1093940158628282748721971010 0.01196705070659672423205913742 0.009986261690691502298962284136
    120 = true := by decide +kernel
example : summary (pairwise true (windowDiff {}) large.items) 1 0 0 0 8 = true := by decide +kernel
example : summary (pairwise true (windowDiff {}) complete) 0 0 0 0 48 = true := by decide +kernel
example : summary (pairwise true (windowDiff { lamprierFix := true }) complete) 0 0 0 0 48 = true := by
  decide +kernel
example : summary (pairwise true (pk {}) g5) 0.35530058282396693 0.11001760846099215
    0.012103874171476172 0.015879673965138168 48 = true := by decide +kernel
example : summary (pairwise true (pk {}) g2) 0.2882256923776327507173609771 0.1454395656787966169084191445
    0.02115266726483699483402909754 0.01327675514600517730547602481 120 = true := by decide +kernel
example : summary (pairwise true (pk {}) large.items) 1 0 0 0 8 = true := by decide +kernel
example : summary (pairwise true (pk {}) complete) 0 0 0 0 48 = true := by decide +kernel

example : (match computePairwiseValues byName (pk { returnParts := true }) true g5 none with
    | .ok l => dictGet l "ch1,an3,an1".toList
    | .error _ => none) = some (.parts (.int 3) (.int 10)) := by decide +kernel

/-! ## similarity/boundary_test.py:118-154: several types, two datasets -/

example : summary (pairwise false (boundarySimilarity rt { boundaryFormat := .sets }) multi.items)
    0.50 0.25 0.0625 0.1767766952966368811002110906 2 = true := by decide +kernel

/-- The entries of a comparison of the two datasets, up to 10^-8. -/
def entries (f : Seg → Seg → Py MetricOut) (expected : List (String × ℚ)) : Bool :=
  match computePairwiseValues byName f false hypothesis (some hearst) with
  | .ok l => decide (l.length = 14) && expected.all (fun e => match dictGet l e.1.toList with
      | some (.num v) => decide (|v.val - e.2| < 1 / 10 ^ 8)
      | _ => false)
  | .error _ => false

example : entries (boundarySimilarity rt {}) [("stargazer,h1,1", 0.57142857), ("stargazer,h2,1", 0.38888888),
    ("stargazer,h1,2", 0.42857142), ("stargazer,h2,2", 0.33333333)] = true := by decide +kernel
/-- window/windowdiff_test.py:439-450 -/
example : entries (windowDiff {}) [("stargazer,h1,1", 0.31578947), ("stargazer,h2,1", 0.47368421),
    ("stargazer,h1,2", 0.42105263), ("stargazer,h2,2", 0.47368421)] = true := by decide +kernel
/-- window/pk_test.py:354-364 -/
example : entries (pk {}) [("stargazer,h1,1", 0.26315789), ("stargazer,h2,1", 0.36842105),
    ("stargazer,h1,2", 0.42105263), ("stargazer,h2,2", 0.42105263)] = true := by decide +kernel

end SegEval.Tests
