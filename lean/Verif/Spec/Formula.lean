import Verif.Spec.Similarity

/-!
# The published formulas of boundary and segmentation similarity
-/

namespace SegEval.Spec

open SegEval

/-- `mx` and `mn` are the largest and smallest boundary type used by either string. -/
structure Extremes (a b : BString) (mx mn : ℤ) : Prop where
  usedMax : UsesType a b mx
  usedMin : UsesType a b mn
  le_max : ∀ t, UsesType a b t → t ≤ mx
  min_le : ∀ t, UsesType a b t → mn ≤ t

/-- The cost of a substitution: the distance of its types in the range of types used. -/
def substitutionCost (mx mn : ℤ) (s : Substitution) : ℚ :=
  (|s.typeA - s.typeB| : ℤ) / ((mx : ℚ) - mn + 1)

/-- The cost of a transposition: its span relative to the window. -/
def transpositionCost (nT : ℤ) (t : Transposition) : ℚ := ((t.stop : ℚ) - t.start) / nT

/-- The cost of a script: 1 for every addition. -/
def scriptCost (nT mx mn : ℤ) (e : Edits) : ℚ :=
  e.additions.length + (e.substitutions.map (substitutionCost mx mn)).sum +
    (e.transpositions.map (transpositionCost nT)).sum

/-- The part of a script that is credited: 1 for every match, and for every near miss what it does
not cost. -/
def scriptCredit (nT mx mn : ℤ) (m : ℕ) (e : Edits) : ℚ :=
  m + (e.substitutions.map (fun s => 1 - substitutionCost mx mn s)).sum +
    (e.transpositions.map (fun t => 1 - transpositionCost nT t)).sum

end SegEval.Spec
