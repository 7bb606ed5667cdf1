import Verif.Spec.Formula

/-!
# What a triple of weight functions charges for a script
-/

namespace SegEval.Spec

open SegEval

/-- The weight functions return the charges `x` for the additions, `y` for the substitutions and `z`
for the transpositions of a script. -/
structure Charges (w : Weights) (nT mx mn : ℤ) (e : Edits) (x y z : PyNum) : Prop where
  additions : w.a e.additions = .ok x
  substitutions : w.s e.substitutions mx mn = .ok y
  transpositions : w.t e.transpositions nT = .ok z

/-- The sum of three charges. -/
def total (x y z : PyNum) : ℚ := x.val + y.val + z.val

/-- Floats and Decimals do not occur together. -/
def Unmixed (l : List PyNum) : Prop :=
  (∀ x ∈ l, ∀ q, x ≠ .flt q) ∨ ∀ x ∈ l, ∀ q, x ≠ .dec q

/-- No kind of edit earns anything, and none is charged more than 1 for each edit. -/
structure Fair (e : Edits) (x y z : PyNum) : Prop where
  additions : 0 ≤ x.val ∧ x.val ≤ e.additions.length
  substitutions : 0 ≤ y.val ∧ y.val ≤ e.substitutions.length
  transpositions : 0 ≤ z.val ∧ z.val ≤ e.transpositions.length

/-- Every kind of edit that occurs is charged something. -/
structure Charged (e : Edits) (x y z : PyNum) : Prop where
  additions : e.additions ≠ [] → 0 < x.val
  substitutions : e.substitutions ≠ [] → 0 < y.val
  transpositions : e.transpositions ≠ [] → 0 < z.val

end SegEval.Spec
