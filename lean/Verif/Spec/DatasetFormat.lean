import Verif.Spec.Agreement
import Verif.Spec.Window

/-!
# The same data in two formats
-/

namespace SegEval.Spec

open SegEval

/-- Two segmentations, each in its own format, place the same boundaries. -/
def SameBoundaries (fmt fmt' : BoundaryFormat) (a a' : Seg) : Prop :=
  ∃ s, Denotes fmt a s ∧ Denotes fmt' a' s

/-- The same items coded by the same coders, whose segmentations are related. -/
def RecodedBy (R : Seg → Seg → Prop) (items items' : Items) : Prop :=
  List.Forall₂ (fun e e' => e.1 = e'.1 ∧
    List.Forall₂ (fun c c' => c.1 = c'.1 ∧ R c.2 c'.2) e.2 e'.2) items items'

/-- The same items coded by the same coders, who place the same boundaries. -/
abbrev Recoded (fmt fmt' : BoundaryFormat) (items items' : Items) : Prop :=
  RecodedBy (SameBoundaries fmt fmt') items items'

/-- The same datasets are compared, recoded. -/
inductive SameRequestBy (R : BoundaryFormat → BoundaryFormat → Seg → Seg → Prop) :
    Request → Request → Prop
  | dataset (d d' : Dataset)
      (h : RecodedBy (R d.boundaryFormat d'.boundaryFormat) d.items d'.items) :
      SameRequestBy R (.dataset d) (.dataset d')
  | datasets (d d' g g' : Dataset)
      (h : RecodedBy (R d.boundaryFormat d'.boundaryFormat) d.items d'.items)
      (h' : RecodedBy (R g.boundaryFormat g'.boundaryFormat) g.items g'.items) :
      SameRequestBy R (.datasets d g) (.datasets d' g')

abbrev SameRequest : Request → Request → Prop := SameRequestBy SameBoundaries

/-- Two segmentations, in formats of the window metrics, place the same boundaries, and labels are
those of one segment each. -/
structure SameForPk (fmt fmt' : BoundaryFormat) (a a' : Seg) : Prop where
  formats : WindowFormat fmt ∧ WindowFormat fmt'
  same : ∃ pat, Means fmt a pat ∧ Means fmt' a' pat
  labels : Unrepeated fmt a ∧ Unrepeated fmt' a'

/-- Likewise, where only neighbouring labels matter, and with the fix the first and last of them. -/
structure SameForWindowDiff (fix : Bool) (fmt fmt' : BoundaryFormat) (a a' : Seg) : Prop where
  formats : WindowFormat fmt ∧ WindowFormat fmt'
  same : ∃ pat, Means fmt a pat ∧ Means fmt' a' pat
  labels : Neighbours fmt a ∧ Neighbours fmt' a'
  ends : fix = true → Paddable fmt a ∧ Paddable fmt' a'

/-- The format the segmentations are to be read in: a `Dataset` has its own, a plain dict is in the
format given by the keyword argument. -/
inductive ReadAs (kw : BoundaryFormat) : AgrData → BoundaryFormat → Prop
  | dataset (d : Dataset) : ReadAs kw (.dataset d) d.boundaryFormat
  | dict (items : Items) : ReadAs kw (.dict items) kw

end SegEval.Spec
