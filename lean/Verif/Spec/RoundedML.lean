import Verif.Model.RoundedML
import Verif.Spec.ML
import Verif.Spec.Rounding

/-!
# Queries with rounded arithmetic, and matrices whose cells are already rounded
-/

namespace SegEval.Spec

variable {κ : Type _} [DecidableEq κ]

/-- A query, computed with rounding. -/
def Query.runR (ρ : Rounding) (o : ClassOrder κ) (site : List ℕ) (m : CM κ) :
    Query κ → MPy κ PyNum
  | .precision c v => precisionR ρ o site c v m
  | .recall c v => recallR ρ o site c v m
  | .fmeasure c beta v => fmeasureR ρ o site c beta v m

/-- The cells are ints or `Decimal`s, not negative, and rounding changes none of them. -/
structure Rounded (ρ : Rounding) (m : CM κ) : Prop where
  noFloats : NoFloats m
  nonNeg : NonNeg m
  kept : ∀ p a, ρ.dec (entry m p a) = entry m p a

/-- Every cell is an int. -/
def IntCells (m : CM κ) : Prop := ∀ p a, ∃ n : ℤ, cell m p a = .int n

/-- Not an F-measure with a weight other than 1. -/
def Query.Balanced : Query κ → Prop
  | .precision _ _ => True
  | .recall _ _ => True
  | .fmeasure _ beta _ => beta = 1

end SegEval.Spec
