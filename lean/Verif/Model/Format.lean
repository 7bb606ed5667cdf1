import Verif.Py

/-!
# Model of `segeval/format.py`
-/

namespace SegEval

/-- segeval/format.py:11 `BoundaryFormat`; `other` stands for every unsupported value (e.g. `None`).
-/
inductive BoundaryFormat
  | position | mass | sets | nltk | other
  deriving DecidableEq, Repr

/-- A segmentation argument: a tuple or list of ints (masses or position labels), a sequence of
boundary sets, or an NLTK string.  Simplification: labels are ints (segeval/format.py:11). -/
inductive Seg
  | ints (isTuple : Bool) (l : List Obj)
  | sets (l : List (Finset ℤ))
  | str (s : List Char)
  deriving DecidableEq

/-- Lengths of the maximal runs of equal values, `cur` being the key of the open run of length `n`
(`itertools.groupby` with `==` on values, segeval/format.py:25). -/
def runsAux (cur : ℤ) (n : ℕ) : List ℤ → List ℕ
  | [] => [n]
  | y :: ys => if y = cur then runsAux cur (n + 1) ys else n :: runsAux y 1 ys

/-- Lengths of the maximal runs of equal values of a whole sequence (segeval/format.py:25). -/
def runs : List ℤ → List ℕ
  | [] => []
  | x :: xs => runsAux x 1 xs

/-- segeval/format.py:14-25 `convert_positions_to_masses`. -/
def convertPositionsToMasses (positions : List Obj) : List ℤ :=
  (runs (positions.map Obj.val)).map Int.ofNat

/-- segeval/format.py:37-40, the loop from segment index `i`: `[i + 1] * mass` repeats one object
(a non-positive mass repeats it zero times). -/
def massesToPositionsFrom (i : ℕ) : List ℤ → List Obj
  | [] => []
  | mass :: masses =>
      List.replicate mass.toNat ⟨(i : ℤ) + 1, 0⟩ ++ massesToPositionsFrom (i + 1) masses

/-- segeval/format.py:28-40 `convert_masses_to_positions`. -/
def convertMassesToPositions (masses : List ℤ) : List Obj := massesToPositionsFrom 0 masses

/-- segeval/format.py:55-59, the loop over the masses with `pos` units consumed so far. -/
def boundaryStringLoop (pos : ℤ) (string : List (Finset ℤ)) : List ℤ → Py (List (Finset ℤ))
  | [] => .ok string
  | mass :: masses =>
    let curPos := pos + mass - 1
    if curPos < string.length then
      match pyModify string curPos (insert 1) with
      | .ok string' => boundaryStringLoop (pos + mass) string' masses
      | .error e => .error e
    else boundaryStringLoop (pos + mass) string masses

/-- segeval/format.py:43-61 `boundary_string_from_masses`. -/
def boundaryStringFromMasses (masses : List ℤ) : Py (List (Finset ℤ)) :=
  boundaryStringLoop 0 (List.replicate (masses.sum - 1).toNat ∅) masses

/-- `string.split(c)` for a one-character separator (segeval/format.py:76). -/
def splitOnChar (c : Char) : List Char → List (List Char)
  | [] => [[]]
  | x :: xs =>
    if x = c then [] :: splitOnChar c xs
    else
      match splitOnChar c xs with
      | [] => [[x]]
      | piece :: pieces => (x :: piece) :: pieces

/-- segeval/format.py:64-77 `convert_nltk_to_masses`.  Simplification: the boundary symbol is one
character. -/
def convertNltkToMasses (string : List Char) (boundarySymbol : Char := '1') : List ℤ :=
  (splitOnChar boundarySymbol string).map (fun segment => (segment.length : ℤ) + 1)

end SegEval
