import Verif.Model.Compute
import Verif.Model.Window

/-!
# Values that are no segmentation of the declared format

The metrics do not check the kind of their arguments.  Model/Similarity and Model/Window stop at values
that do not fit the format, and Model/Compute at a dict in the place of a segmentation; here these go on.
Not modelled: pk and window_diff of strings or sets given as positions (they compare by identity).
-/

namespace SegEval

/-- A sequence where a segmentation is expected: a segmentation of any format, or a dict (such as a
`Dataset`), which is iterated over its keys (segeval/util/__init__.py:31-83). -/
inductive SeqArg
  | seg (s : Seg)
  | keys (l : List Name)

/-- The value of an element (segeval/format.py:25). -/
inductive Label
  | int (n : ℤ)
  | set (s : Finset ℤ)
  | text (s : Name)
  deriving DecidableEq

/-- The elements in order; those of a string are its characters (segeval/format.py:25). -/
def SeqArg.elements : SeqArg → List Label
  | .seg (.ints _ l) => l.map (fun x => .int x.val)
  | .seg (.sets l) => l.map .set
  | .seg (.str s) => s.map (fun c => .text [c])
  | .keys l => l.map .text

/-- `len(list(group))` of the open run `cur` of length `n` and of the runs after it
(segeval/format.py:25). -/
def runLengthsAux {α : Type _} [DecidableEq α] (cur : α) (n : ℕ) : List α → List ℕ
  | [] => [n]
  | y :: ys => if y = cur then runLengthsAux cur (n + 1) ys else n :: runLengthsAux y 1 ys

/-- segeval/format.py:25 `groupby` of any sequence. -/
def runLengths {α : Type _} [DecidableEq α] : List α → List ℕ
  | [] => []
  | x :: xs => runLengthsAux x 1 xs

/-- segeval/similarity/__init__.py:31-48 conversion of one argument, for all formats but `sets`:
only strings can
be split, and only ints can be summed. -/
def anyBString (fmt : BoundaryFormat) (x : SeqArg) : Py BString :=
  match fmt with
  | .nltk =>
    match x with
    | .seg (.str s) => boundaryStringFromMasses (convertNltkToMasses s)
    | _ => .error .attributeError
  | .mass =>
    match x with
    | .seg (.ints _ l) => boundaryStringFromMasses (l.map Obj.val)
    | x => if x.elements = [] then boundaryStringFromMasses [] else .error .typeError
  | .position => boundaryStringFromMasses ((runLengths x.elements).map Int.ofNat)
  | _ => .error .segmentationMetricError

/-- The sequence as boundary sets, if its elements are sets (segeval/similarity/__init__.py:37-38).
-/
def SeqArg.asSets : SeqArg → Option BString
  | .seg (.sets l) => some l
  | x => if x.elements = [] then some [] else none

/-- segeval/similarity/__init__.py:31-55 conversion of both arguments.  In the format `sets` nothing
is
converted; after the check of lengths ints cannot be iterated
(segeval/similarity/distance/__init__.py:15-18), and strings
cannot be subtracted (segeval/similarity/distance/multipleboundary.py:171-173). -/
def anyBStrings (fmt : BoundaryFormat) (a b : SeqArg) : Py (BString × BString) :=
  match fmt with
  | .sets =>
    if a.elements.length ≠ b.elements.length then .error .segmentationMetricError
    else
      match a.asSets, b.asSets with
      | some sa, some sb => .ok (sa, sb)
      | _, _ => .error .typeError
  | fmt =>
    match anyBString fmt a with
    | .error e => .error e
    | .ok sa =>
      match anyBString fmt b with
      | .error e => .error e
      | .ok sb => .ok (sa, sb)

/-- segeval/similarity/boundary.py:12-36 `__boundary_similarity__`: after conversion it goes on as
in the format `sets`. -/
def boundarySimilarityAny (rt : Runtime) (kw : SimKw) (a b : SeqArg) : Py MetricOut :=
  match anyBStrings kw.boundaryFormat a b with
  | .error e => .error e
  | .ok (sa, sb) => boundarySimilarity rt { kw with boundaryFormat := .sets } (.sets sa) (.sets sb)

/-- segeval/similarity/segmentation.py:12-37 `__segmentation_similarity__`. -/
def segmentationSimilarityAny (rt : Runtime) (kw : SimKw) (a b : SeqArg) : Py MetricOut :=
  match anyBStrings kw.boundaryFormat a b with
  | .error e => .error e
  | .ok (sa, sb) => segmentationSimilarity rt { kw with boundaryFormat := .sets } (.sets sa) (.sets sb)

/-- segeval/window/pk.py:20-30 and segeval/window/windowdiff.py:76-86 conversion of one argument;
the keys of a dict are different
strings, numbered here. -/
def anyPositions (fmt : BoundaryFormat) (x : SeqArg) : Py Seg :=
  match fmt with
  | .nltk =>
    match x with
    | .seg (.str s) => .ok (.ints true (convertMassesToPositions (convertNltkToMasses s)))
    | _ => .error .attributeError
  | .mass =>
    match x with
    | .seg (.ints _ l) => .ok (.ints true (convertMassesToPositions (l.map Obj.val)))
    | x => if x.elements = [] then .ok (.ints true []) else .error .typeError
  | .position =>
    match x with
    | .seg (.ints t l) => .ok (.ints t l)
    | .keys l => .ok (.ints false ((List.range l.length).map (fun (i : ℕ) => ⟨(i : ℤ), 0⟩)))
    | _ => .error .unmodelled
  | _ => .error .segmentationMetricError

/-- segeval/window/windowdiff.py:41-139 `__window_diff__`: a dict can be zipped but not added to a
tuple. -/
def windowDiffAny (kw : WinKw) (hypothesis reference : SeqArg) : Py MetricOut :=
  match anyPositions kw.boundaryFormat reference with
  | .error e => .error e
  | .ok r =>
    match anyPositions kw.boundaryFormat hypothesis with
    | .error e => .error e
    | .ok h => windowDiff { kw with boundaryFormat := .position } h r

/-- A dict (segeval/window/pk.py:46). -/
def SeqArg.isDict : SeqArg → Bool
  | .keys _ => true
  | .seg _ => false

/-- segeval/window/pk.py:17-63 `__pk__`: a dict cannot be sliced (`TypeError`; `KeyError` since
Python 3.12). -/
def pkAny (kw : WinKw) (hypothesis reference : SeqArg) : Py MetricOut :=
  match anyPositions kw.boundaryFormat reference with
  | .error e => .error e
  | .ok r =>
    match anyPositions kw.boundaryFormat hypothesis with
    | .error e => .error e
    | .ok h =>
      match positionsChecked .position h r with
      | .error e => .error e
      | .ok (_, ref) =>
        match effectiveWindow kw ref.2 with
        | .error e => .error e
        | .ok w =>
          if (hypothesis.isDict || reference.isDict) && !(pyRange (ref.2.length - w)).isEmpty then
            .error .typeError
          else pk { kw with boundaryFormat := .position } h r

/-- The sequence that an argument is (segeval/util/__init__.py:31-83). -/
def ArgVal.sequence : ArgVal → SeqArg
  | .none => .keys []
  | .int n => .seg (.ints true [⟨n, 0⟩])
  | .seg s => .seg s
  | .dataset d => .keys (dictKeys d.items)
  | .dict d => .keys (dictKeys d)

/-- segeval/util/__init__.py:31-83 `__fnc_metric__` for all arguments: two arguments of which one is
no `Dataset`
are both taken for segmentations. -/
def fncMetricAny {R : Type _} (o : ClassOrder Name) (f : BoundaryFormat → SeqArg → SeqArg → Py R)
    (fmt : BoundaryFormat) (permuted : Bool) (c : CallArgs) : Py (CallOut R) :=
  match parseArgs c with
  | .error e => .error e
  | .ok (h0, r0, d, extra) =>
    let h := h0.wrapInt
    let r := r0.wrapInt
    let g := fun (fmt : BoundaryFormat) (a b : Seg) => f fmt (.seg a) (.seg b)
    if d.truthy then
      match d with
      | .dataset ds =>
        match computePairwiseValues o (rejectExtra extra g ds.boundaryFormat) permuted ds.items none with
        | .error e => .error e
        | .ok out => .ok (.pairs out)
      | _ => .error .attributeError
    else if h.truthy && r.truthy then
      match h, r with
      | .dataset dh, .dataset dr =>
        if dh.boundaryFormat ≠ dr.boundaryFormat then .error .segmentationMetricError
        else
          match computePairwiseValues o (rejectExtra extra g dh.boundaryFormat) permuted
              dh.items (some dr.items) with
          | .error e => .error e
          | .ok out => .ok (.pairs out)
      | h, r =>
        if extra then .error .typeError
        else
          match f fmt h.sequence r.sequence with
          | .error e => .error e
          | .ok x => .ok (.single x)
    else .error .segmentationMetricError

end SegEval
