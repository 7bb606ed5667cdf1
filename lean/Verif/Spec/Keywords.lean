import Verif.Model.Keywords

/-!
# Specification: which keyword arguments a metric has (docs/api.rst)
-/

namespace SegEval.Spec

/-- The names written in a call. -/
def given (k : Kwargs) : List Name :=
  (if k.boundaryFormat.isSome then ["boundary_format".toList] else []) ++
  (if k.permuted.isSome then ["permuted".toList] else []) ++
  (if k.oneMinus.isSome then ["one_minus".toList] else []) ++
  (if k.returnParts.isSome then ["return_parts".toList] else []) ++
  (if k.nT.isSome then ["n_t".toList] else []) ++
  (if k.boundaryTypes.isSome then ["boundary_types".toList] else []) ++
  (if k.weight.isSome then ["weight".toList] else []) ++
  (if k.windowSize.isSome then ["window_size".toList] else []) ++
  (if k.fncRound.isSome then ["fnc_round".toList] else []) ++
  (if k.lamprierFix.isSome then ["lamprier_et_al_2007_fix".toList] else []) ++
  (if k.datasetB.isSome then ["dataset_b".toList] else []) ++
  k.others

/-- The names that have a value in a `Kwargs`. -/
def ownNames : List Name :=
  ["boundary_format".toList, "permuted".toList, "one_minus".toList, "return_parts".toList,
    "n_t".toList, "boundary_types".toList, "weight".toList, "window_size".toList,
    "fnc_round".toList, "lamprier_et_al_2007_fix".toList, "dataset_b".toList]

/-- No name is written twice (Python does not allow it). -/
def WrittenOnce (k : Kwargs) : Prop := ∀ n ∈ k.others, n ∉ ownNames

/-- The parameters of every metric (docs/api.rst:55-58, 169-172). -/
def commonParameters : List Name :=
  ["boundary_format".toList, "permuted".toList, "one_minus".toList, "return_parts".toList]

/-- The parameters of `pk` (docs/api.rst:167-179). -/
def pkParameters : List Name := commonParameters ++ ["window_size".toList, "fnc_round".toList]

/-- The parameters of `window_diff`: those of `pk`, and one that is not documented
(docs/api.rst:188-198, segeval/window/windowdiff.py:17-20). -/
def windowDiffParameters : List Name := pkParameters ++ ["lamprier_et_al_2007_fix".toList]

/-- The parameters of the similarities (docs/api.rst:53-68). -/
def similarityParameters : List Name :=
  commonParameters ++ ["n_t".toList, "boundary_types".toList, "weight".toList]

/-- The parameters of `boundary_statistics`. -/
def statisticsParameters : List Name :=
  ["boundary_format".toList, "permuted".toList, "n_t".toList, "boundary_types".toList,
    "weight".toList]

/-- Every keyword of the call is a parameter. -/
def AllKnown (parameters : List Name) (k : Kwargs) : Prop := ∀ n ∈ given k, n ∈ parameters

/-- Some keyword of the call is not a parameter, say because it is misspelt. -/
def SomeUnknown (parameters : List Name) (k : Kwargs) : Prop := ∃ n ∈ given k, n ∉ parameters

/-- The call of a similarity that the keywords ask for; `n_t` is 2 by default. -/
def askedSimilarity (k : Kwargs) : SimKw :=
  { boundaryFormat := k.boundaryFormat.getD .mass
    oneMinus := k.oneMinus.getD false
    returnParts := k.returnParts.getD false
    nT := k.nT.getD 2
    weight := k.weight.getD .default }

/-- The call of a window metric that the keywords ask for. -/
def askedWindow (k : Kwargs) : WinKw :=
  { boundaryFormat := k.boundaryFormat.getD .mass
    oneMinus := k.oneMinus.getD false
    returnParts := k.returnParts.getD false
    windowSize := k.windowSize.getD none
    fncRound := k.fncRound.getD roundHalfEven
    lamprierFix := k.lamprierFix.getD false }

/-- Some item of the dataset has two codings to compare. -/
def HasPair (items : Items) : Prop := ∃ it ∈ items, 2 ≤ it.2.length

end SegEval.Spec
