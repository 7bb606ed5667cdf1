import Verif.Spec.Edit
import Verif.Spec.Format
import Verif.Model.Similarity

/-!
# What the similarity metrics should mean
-/

namespace SegEval.Spec

open SegEval

/-- The boundary types used by either string. -/
def UsesType (a b : BString) (t : ℤ) : Prop := ∃ p, t ∈ typesAt a p ∨ t ∈ typesAt b p

/-- The number of boundaries of a string. -/
def boundaryCount (s : BString) : ℕ := ∑ p ∈ Finset.range s.length, (typesAt s p).card

/-- The number of boundaries both strings place. -/
def matchCount (a b : BString) : ℕ :=
  ∑ p ∈ Finset.range a.length, (typesAt a p ∩ typesAt b p).card

/-- The number of edits. -/
def editCount (e : Edits) : ℕ :=
  e.additions.length + e.substitutions.length + e.transpositions.length

/-- `x` is the number a metric call returned. -/
def Returns (r : Py MetricOut) (x : ℚ) : Prop := ∃ v : PyNum, r = .ok (.num v) ∧ v.val = x

/-- One of the weight triples offered by the package. -/
def Supplied (w : Weights) : Prop :=
  w.a = weightA ∧ (w.s = weightS ∨ w.s = weightSScale) ∧ (w.t = weightT ∨ w.t = weightTScale)

/-- `s` is the boundary string denoted by a segmentation in a given format: boundary sets denote
themselves; in the other formats every boundary is of type 1. -/
def Denotes : BoundaryFormat → Seg → BString → Prop
  | .sets, .sets l, s => s = l
  | fmt, seg, s => ∃ pat, Means fmt seg pat ∧ s = pat.map (fun x => if x then {1} else ∅)

/-- At no position do the strings place boundaries both. -/
def NeverTogether (a b : BString) : Prop := ∀ p, typesAt a p = ∅ ∨ typesAt b p = ∅

end SegEval.Spec
