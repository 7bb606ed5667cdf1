import Verif.Spec.Formula

/-!
# Wider windows, and the Jaccard index
-/

namespace SegEval.Spec

open SegEval

/-- At no position does each string have a boundary type the other lacks (so with one type). -/
def OneSided (a b : BString) : Prop := ∀ p, onlyIn a b p = ∅ ∨ onlyIn b a p = ∅

/-- The boundaries of a string: positions with types. -/
def boundaries (s : BString) : Finset (ℕ × ℤ) :=
  (Finset.range s.length).biUnion (fun p => (typesAt s p).image (fun t => (p, t)))

end SegEval.Spec
