import Verif.Model.Format

/-!
# What a segmentation means

A document with `n + 1` units has `n` potential boundary positions.  A segmentation is the list of
answers "is there a boundary after unit `i`?".  Each input format is given its meaning directly,
without using the conversion functions of the package.
-/

namespace SegEval.Spec

open SegEval

/-- There is a boundary between units `i` and `i + 1` of a label sequence. -/
def ChangeAt (l : List ℤ) (i : ℕ) : Prop :=
  ∃ x y, l[i]? = some x ∧ l[i + 1]? = some y ∧ x ≠ y

/-- Unit `e` (counting from 1) ends a segment that is not the last one. -/
def InnerEnd (masses : List ℤ) (e : ℤ) : Prop :=
  ∃ before after, masses = before ++ after ∧ before ≠ [] ∧ after ≠ [] ∧ before.sum = e

/-- `pat` is the segmentation described by positive segment masses. -/
def MassMeans (masses : List ℤ) (pat : List Bool) : Prop :=
  masses ≠ [] ∧ (∀ m ∈ masses, 0 < m) ∧ (pat.length : ℤ) + 1 = masses.sum ∧
  ∀ i : ℕ, pat[i]? = some true ↔ InnerEnd masses ((i : ℤ) + 1)

/-- `pat` is the segmentation described by one label per unit. -/
def LabelsMean (labels : List ℤ) (pat : List Bool) : Prop :=
  labels.length = pat.length + 1 ∧ ∀ i : ℕ, pat[i]? = some true ↔ ChangeAt labels i

/-- `pat` is the segmentation described by a string with one character per potential boundary. -/
def StringMeans (c : Char) (s : List Char) (pat : List Bool) : Prop :=
  s.length = pat.length ∧ ∀ i : ℕ, pat[i]? = some true ↔ s[i]? = some c

/-- `pat` is the segmentation described by single-type boundary sets. -/
def SetsMean (l : List (Finset ℤ)) (pat : List Bool) : Prop :=
  l.length = pat.length ∧
  ∀ i : ℕ, (pat[i]? = some true ↔ l[i]? = some {1}) ∧ (pat[i]? = some false ↔ l[i]? = some ∅)

/-- `pat` is the segmentation denoted by an argument in a given format. -/
def Means : BoundaryFormat → Seg → List Bool → Prop
  | .mass, .ints _ l, pat => MassMeans (l.map Obj.val) pat
  | .position, .ints _ l, pat => LabelsMean (l.map Obj.val) pat
  | .nltk, .str s, pat => StringMeans '1' s pat
  | .sets, .sets l, pat => SetsMean l pat
  | _, _, _ => False

end SegEval.Spec
